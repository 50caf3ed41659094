# Formal model of `polling` 3.7.4 — design and trusted base

Source under study: `/repo` (smol-rs/polling, v3.7.4). Proof assistant: Lean 4.33.0 with Mathlib.
`/verif/lean` is the Lake project; `lake build` builds everything.

## 1. Method

The crate is a thin portable layer over five OS interfaces (epoll, kqueue, poll(2), Solaris event
ports, Windows IOCP+AFD).  What a user relies on is a mixture of

* *pure decision logic* (flag translation, timeout conversion, key checks) — modelled as total
  computable functions on `BitVec`/`Nat` and proved for all inputs;
* *sequential state* (registration tables, kernel interest lists, one-shot disarming, timers) —
  modelled as executable machines `step : State → Op → State × Out`; proved by invariants and by
  refinement to a small abstract map, by induction over arbitrary operation lists;
* *concurrency protocols* (notify/wait, poll's mutex/condvar/pipe/counter protocol, IOCP's polling flag
  and update queue, wait callbacks) — modelled as interleaving transition systems over an arbitrary
  finite number of threads (`step : State → Action → Option State`), properties proved for every
  reachable state by inductive invariants.

Every definition of the model cites the file and lines it models.  Property theorems live in
`Verif/Props/*.lean`; specs that are independent of the model are in `Verif/Spec/*.lean`; helper lemmas
are in `Verif/Proof/*.lean`; the models are in `Verif/Model/*.lean`.

When a property is *false* of the code as written, the negation is proved with a concrete witness
(`..._false` / `..._violated` theorems) and the strongest true part is kept under a name ending in
`_partial`; see section 5.

## 2. Plan per property

| id | modelled | proof |
|----|----------|-------|
| C01 | `add_with_mode`/`modify_with_mode` of lib.rs over an arbitrary backend | direct, for every backend function and state |
| C02 | `Events::iter/len/is_empty`, `wait`'s return value; whole-machine histories on epoll | list lemmas + invariant "only the internal fds carry the reserved key" |
| C03 | key casts of each backend at any usize width; registrations of each backend machine | bit-vector lemma + history induction |
| C04 | interleaving model lib flag × wake channel (eventfd, pipe, EVFILT_USER, port, IOCP) | inductive invariant, any number of threads |
| C05 | interleaving model of poll.rs + lib.rs | negation by witness traces; partial positive theorem by invariant |
| C06 | sequential machines (epoll with eventfd / pipe; abstract channel for others) | computation for all n and states under the machine invariant |
| C07 | same interleaving model as C04 | invariant (mutual exclusion), effect of failing try_lock |
| C08 | the retry loop of lib.rs over an arbitrary list of backend outcomes with clock | induction on the outcome list |
| C09 | loop + millisecond conversions + OS contract for timeouts; the epoll and event-port pollers with all threads | arithmetic + induction; an invariant ties the deadline of the wait in progress to the time it began (`Props/C09Machine.lean`) |
| C10 | timeout argument selection of each backend | decision logic, all inputs |
| C11 | all conversions with explicit machine-integer bounds | arithmetic, all inputs |
| C12 | epoll machine with timerfd | invariant over histories |
| C13 | poll.rs table (`poll_fds` vector + `fd_data` map, swap_remove) | refinement to a map, induction over histories |
| C14 | poll.rs result collection for any permutation of the map | refinement + permutation lemma |
| C15 | epoll, kqueue, poll, port, IOCP machines | invariant "disarmed ⇒ not reported until re-armed"; poll(2): negation for HUP/ERR |
| C16 | epoll, poll, kqueue, IOCP machines | invariant on the ready list |
| C17 | mode checks of all backends | decision logic; poll modify: negation (state is changed before rejection) |
| C18 | registration tables of all backends | refinement to the abstract registry |
| C19 | all backend machines | histories; waitables: negation |
| C20 | flag words of epoll, poll, event ports | bit-vector proofs |
| C21 | kqueue change lists and kernel knote table | all prior kernel states |
| C22 | kevent(2) contract with EV_RECEIPT and the change lists built by the code | list induction |
| C23 | `submit_changes` | list induction |
| C24 | `add` of each backend with an OS failure oracle | positive for epoll/poll/port; negation for kqueue and IOCP |
| C25 | `feed_event`, mask translation | bit-vector proofs, machine invariant |
| C26 | IOCP socket packet machine with AFD | inductive invariant |
| C27 | `afd_handle` | invariant over histories |
| C28 | interleaving model of `polling` flag + queue | negation by witness; partial theorem |
| C29 | same model | invariant |
| C30 | `feed_event` lock model | unreachability by mask invariant; conditional negation |
| C31 | completion queue | induction; reserved key negation |
| C32 | waitable packet machine with callback thread | negations + partial |
| C33 | poll interleaving model; `PollBlocking` for the PS Vita and HermitOS | progress theorem + ranking function; on the Vita and HermitOS negation by witness traces with an invariant of the stuck states, and progress by invariant for programs whose calls do not overlap |
| C34 | same model with ghost log | invariant |
| C35 | channel counters in both interleaving models | counting invariant |
| C36 | `Event` API over each `EventExtra` | bit-vector proofs |
| C37 | registration flag words | bit-vector; negation for poll and event ports |
| C38 | buffer handling of each backend's wait | direct + capacity lemmas |
| C39 | C04/C05 models with failing waits | negation by witness; partial |
| C40 | extension entry points | negation by witness; partial |
| C41 | epoll ready list | rotation argument |
| C42 | `EventExtra` queries | bit-vector proofs |
| C43 | kqueue and event-port machines | position in the queue decreases |
| C44 | IOCP mask translation and machine | independent bit-by-bit specification |
| C45 | IOCP completion queue | position in the queue |
| C46 | descriptor table with Rust's ownership rule | compositional outcome lemmas for every prefix of failing calls |
| C47 | reference counts on top of the IOCP machine | every count equals the number of places that have the packet (invariant) |
| C48 | same | same invariant with a ghost count of lost references; witnesses |
| C49 | IOCP machine with one step per access inside the packet mutexes (`IocpF`) | forward simulation to `IocpM`; conversely sections run without interruption |
| C50 | same | invariant that relates the buffers to the state of the operation |
| C51 | same | rank on the positions inside a section |
| C52 | `IocpF`; `PollProto`; `KqM` | invariants of C13, C30, C49, C51; kqueue: negation for invalid signal numbers |
| C53 | `KqM` | history induction from C03, C15, C21; negation: signals in level mode |
| C54 | visible part of the traces of `EpollM`, `PortM`, `PollProto`, `KqM`, `IocpM` (`Spec/Api.lean`, `Spec/ApiView.lean`) | traces are refined to marks (a call takes effect, a `wait` takes an event); rules on marks imply the contract; each backend obeys the rules |
| C55 | `EpollM`, `KqM` with the steps of the environment in the history | news of a source (registered, modified or signalled since it was last in a batch) is equivalent to its place in the kernel's queue while a watched condition holds; the queue decides what a batch contains |
| C56 | `BaseSocket`: the search with the ioctl as a parameter | case analysis; a stack of layered providers as the specification of what the answers mean |
| C57 | `Ntdll`: any number of threads at a `Once` cell | invariant by the state of the `Once` |
| C58 | all machines, seen through `Spec/Live.lean`: calls begin and return, `wait` returns keys | from the visible trace to the registration held by the machine (a call that overlaps with no other has taken effect), then C16 and the ends of `wait` |
| C59 | timing model of C09, with bounds on how long OS calls take; epoll, event-port, kqueue, poll and IOCP machines | induction over rounds with the invariant "before the deadline, or within one round after it"; machines: what is left when the loop begins is what the OS call and the timer get |
| C60 | poll, kqueue and IOCP machines, several threads | simulation by an object that does each call in one moment (`Spec/Lin.lean`): the moment is the insertion into, the look at, or the removal from the table of sources; counting the effects of calls in progress gives the balance of successful calls |
| C61 | compile-time conditions (`Targets`) | case distinction over the names that occur, for an arbitrary operating system |
| C62 | all machines | from the soundness of batches (C20, C25) and of deletion (C19); negations from C58 with an empty interest |
| C63 | `AfdGroups` with the handles behind the helpers (`AfdHandles`) | invariant: a handle is the poller's iff exactly one of a helper in use, the thread that makes a helper, and a pending destructor has it; simulation to `AfdGroups` |
| C64 | `KqFilters`, a layer on `KqM` with the contents of filters, processes and time | invariant per filter: knote iff asked for, contents as asked for, active or ready only if earned; timers: start of the period + elapsed = now + expiries × duration |
| C65 | `Layout`: `repr(C)` and the bytes of AFD requests; `AfdBytes`: packets in one memory | offsets computed from the declarations against the kernel's own numbers; frame lemmas; invariant per packet: who has it, what is in it |
| C66 | `IocpM`, `PollProto` | potential: every poll of a socket is paid for by the registration, a change or an event; every `poll()` by a `wait`, a failure or a byte. Negation: one lap of the loop of `wait` leads back to where it began |
| C67 | all machines, with what was done beside what was observed (`Spec/Hand.lean`) | potential: empty-handed returns + notifications in the channel, taken by the `wait` in progress, and about to be sent ≤ `notify` calls begun; also with the time, on every backend: a `wait` with a timeout that returns empty before its time is over counts as well (where the machine has no clock, one is put around it; a step in which the time limit ends the `wait` is shown to come when the time is over, and all other empty returns are paid for) |
| C68 | epoll, kqueue, event ports; `Model/Nested.lean` (when a poller's own descriptor is readable) | ready list / active filters / queue compared with what the next `wait` takes; for epoll an invariant over the history (`Spec/Nested.lean`): the counter of the eventfd is only positive after a recent `notify`, the timer only expired after the time of an earlier `wait` |
| C69 | poll (also with blocking reads), kqueue, IOCP machines; epoll and event ports (threads in `notify` are counted) | `Spec/WaitFree.lean`: along every continuation the call has returned, or has made fewer than `k` steps and can make the next one; a count of the steps left that the call's own steps decrease and others do not touch |
| C70 | all machines | as C69; for IOCP a bound with the number of times the queue of updates is found full, and an exact cycle of two threads in which a call never returns; for poll a state in which the call cannot go on |
| C71 | epoll, kqueue, event-port and poll machines | as C69, for the part of `wait` after its system call; the bytes in the channel, the writers on their way and the value of `notified` pay for the reads of the loop that empties the channel |
| C72 | IOCP machine | as C71, with a count of how often the queue of updates is found full; a completion of the kind required stays one because kinds of packets never change |

## 3. Trusted base

**Logic.** The Lean 4.33.0 kernel.  Axioms used by the theorems of the manifest: only `propext`, `Classical.choice`,
`Quot.sound` (`vcheck` replays all modules).  No own axioms, no `sorry`, no `native_decide`, no `bv_decide`.  Concrete
runs are closed by `decide`, sometimes `decide +kernel`: both are checked by the kernel.

**Faithfulness of the models.** That each definition does what the cited lines of the source do is a matter of reading.
The files are arranged to make that reading easy: one Lean definition per Rust function, with file and lines.

**Rust.**
* Sequential code runs as written; integer casts, `checked_add`, `saturating_*`, `Duration`, `Instant` as in the Rust
  reference (`Instant` has a largest value, a parameter).
* `Mutex`, `Condvar`, atomics (`SeqCst` in this crate, with one exception) have interleaving semantics.  A `Mutex` section that no other
  thread can see into is one step; for the packets of IOCP, where the kernel and other threads do see in, this is proved (C49).  The
  one `Acquire` load, of `polling` in iocp/mod.rs:509, may return the value that is not current, except in the thread that
  is inside `wait` (which stored the current one itself); every theorem about `IocpM` allows this.
* `HashMap` is a finite map with arbitrary iteration order; `Vec` as documented; `ConcurrentQueue` is a bounded FIFO whose
  push and pop are atomic; allocation succeeds.
* The operations of rustix on vectors of events (`epoll::wait`, `kevent`, `port_getn`: clear or keep the content, fill
  the spare capacity, set the length) as documented there (used by C38).

**Operating systems.** The kernel side is part of each machine; these definitions are the contracts assumed:

| backend | contract | where |
|---|---|---|
| epoll | interest list with `EPOLL_CTL_ADD/MOD/DEL` and their errors; ready list; `ep_send_events` with level, edge and one-shot; wake-ups for arbitrary conditions at arbitrary times; `HUP` and `ERR` always reported; eventfd counter or pipe; timerfd; `epoll_wait` may return early with any error; everything may fail with any error the OS chooses | `Model/EpollM.lean` |
| descriptors | a call that opens a descriptor returns an unused number, or fails; `close` of an open descriptor closes it | `Model/Lifecycle.lean` |
| kqueue | knotes by (ident, filter); `EV_ADD` replaces key and (depending on the kernel, parameter `keepMode`) the mode; `EV_CLEAR`, `EV_ONESHOT`, `EV_DISPATCH`; `EV_RECEIPT`; `ENOENT`, `EPIPE` and arbitrary errors; user filters; the scan with a limit.  `Model/KqSubmit.lean` has the full system call with receipts and justifies processing changes one by one | `Model/KqM.lean`, `Model/KqSubmit.lean` |
| kqueue filters (C64 only) | a process knote becomes active when the process does something in its `fflags`; a timer knote when its period is over, and again every period; `EV_CLEAR` forgets what was reported; a new knote starts with nothing; `EV_ADD` of an existing knote replaces `fflags` and period, starts the period anew and (parameter `resets`) drops an unreported expiry | `Model/KqFilters.lean` |
| AFD requests in memory (C65 only) | the kernel reads and writes `AFD_POLL_INFO` and `IO_STATUS_BLOCK` (and reads `OBJECT_ATTRIBUTES`) at the offsets of their C declarations, little-endian, and writes nowhere else (`Completes`); `lpOverlapped` of the entry is the context given to `NtDeviceIoControlFile` | `Spec/WinLayout.lean` |
| poll(2) | `revents` overwritten for each entry by an arbitrary function; the result counts the non-zero ones; the pipe (or eventfd) is readable iff it holds something; a read of an eventfd takes the whole counter, and waits until it is not zero unless `EFD_NONBLOCK` was asked for (HermitOS, by eventfd(2); if reads of HermitOS do not wait, `PollProto` with `Chan.eventfd` applies instead); arbitrary errors | `Model/PollTable.lean`, `Model/PollProto.lean` |
| event ports | associations are dissolved by delivery; an entry is queued when a condition asked for (or `HUP`, `ERR`, `NVAL`) arises or holds at association; `port_send`; `port_getn` takes from the head; arbitrary errors | `Model/PortM.lean` |
| IOCP/AFD | one AFD operation per packet; it completes at any time with any subset of the conditions it polls for, with an error, or as cancelled; the completion port is a FIFO; `CancelIo` completes later; waits registered with the thread pool fire at any time, once, and the callback may run at any later time, also after the wait was unregistered; every call may be refused | `Model/IocpM.lean` |
| clock | monotonic; a call with a time limit that returns because of the limit does so no earlier than the limit | `Model/WaitTiming.lean`, `Model/PollClock.lean`, `Model/KqClock.lean` (IOCP: nothing is assumed, `Model/IocpClock.lean`) |
| promptness (C59 only) | a call with a time limit returns no later than the limit plus `ε`; a timer becomes readable no later than it was set to; other calls and steps, reading the clock among them, take at most `ε`; on poll this includes waiting for operations of other threads that have announced themselves | `Props/C59.lean` |
| readable pollers (C68 only) | the descriptor of an epoll instance is readable iff an entry of its ready list has something to report; that of an event port iff an event is queued; that of a kqueue if `kevent` would report something, and only if a filter is active (`Indicates`: kernels differ in between) | `Model/Nested.lean` |
| error kinds of the OS (C60 only) | `kevent` as a whole, and the calls of the IOCP backend (AFD, `CreateIoCompletionPort`, `RegisterWaitForSingleObject`, …), do not fail with an error that std maps to `NotFound` or `AlreadyExists` (`OwnErrors`): a program could not tell those from the backend's own; on kqueue, errors of single changes are covered without this (they are counted as other failures, whatever their number; `ENOENT` is ignored by the code) | `Proof/LinKq.lean`, `Proof/LinIocp.lean` |
| rustc (C61 only) | `cfg(windows)` is the system Windows and not Unix; HermitOS is not Unix; the vendor Apple has the systems macOS, iOS, tvOS, watchOS, visionOS; the systems named in `Rustc` count as Unix | `Spec/Targets.lean` |

The theorems of each backend hold for every behaviour of the OS within its contract.  A hypothesis that restricts the OS
further (`NoFail`, `Accepts`, `ArmOk`, ...) appears in the statement, and a witness shows what happens without it.  For C54:
`Attach` (kqueue answers `ENOENT` only if there is nothing to remove, and `EPIPE` only if the filter was not there before),
`Accept`, `Starts` (the OS does not refuse what registration calls ask for).  In the visible traces of epoll and event ports a
registration call begins and returns at one moment, that of its only system call: the calls of a real program begin before and
return after it, which makes fewer calls out of date and so only weakens what the contract asks.

## 4. What is and is not modelled

| model | source | content and simplifications |
|---|---|---|
| `Base`, `Spec/EventApi` | lib.rs 125-430 | keys, events, modes, constructors and setters.  Keys are `BitVec 64` (the 32-bit case is in `C03.key_round_trip`) |
| `Lib` | lib.rs 434-764, 788-953 | `add`, `modify`, `delete`, `notify`, `wait` with its retry loop, `Events`, over an arbitrary backend |
| `WaitLock` | lib.rs 731-764 | the lock of `wait` with any number of threads, panics (poisoning), buffers |
| `WaitTiming`, `Time` | lib.rs 736-759 and the timing part of every backend's `wait` | deadlines, remaining time, conversions; the OS is an arbitrary world with a clock |
| `PollClock`, `KqClock`, `IocpClock` | lib.rs 731-764 with poll.rs 205-300, kqueue.rs 229-259, iocp/mod.rs 422-492 | `PollProto`, `KqM`, `IocpM` with the clock: every place where `wait` reads it is a step, time passes between any two steps, and a step that ends a `wait` because of its limit is possible only if the OS (poll, kqueue) or the code (IOCP) may do so at that time |
| `Flags` | epoll.rs 265-397, poll.rs 375-465, port.rs 155-260, kqueue.rs 340-395, iocp/mod.rs 1267-1318, 647-696 | translation of flags both ways, `EventExtra` |
| `Modes` | `supports_level`, `supports_edge` | |
| `Buffers` | `Events` and the buffer handling of every `wait`; `IoCompletionPort::wait` (iocp/port.rs 219-253) | vectors with capacity |
| `EpollM` | epoll.rs 41-242, 407-498 | every function; any number of notifying threads; registration calls are single system calls and therefore single steps. |
| `KqM`, `KqSubmit` | kqueue.rs 51-263, 402-561; os/kqueue.rs 100-285 | every function, any number of threads; one step per change submitted.  The set of sources is a table protected by its lock |
| `PollTable` | poll.rs 102-300, 319-465 | the table, every call, result collection |
| `PollProto` | poll.rs 70-339, 631-830 | the protocol with mutex, condition variable, counter, pipe/eventfd, any number of threads; the table is that of `PollTable` |
| `PollBlocking` | poll.rs 478-480, 701-723, 810-823 | `PollProto` with the blocking reads of the PS Vita (pipe) and of HermitOS (eventfd).  The `fcntl` calls do not fail and a byte is readable as soon as it is written (the code comments that it may be later).  Proved of it: C05, C33, C60; every run is one of `PollProto` (`PollBlk.reach_plain`), so all safety theorems about `PollP.Reach` apply; the theorems on progress (C33, C58, C59) do not |
| `PortM` | port.rs 22-201 | every function, any number of notifying threads |
| `Nested` | epoll.rs 245-255, kqueue.rs 267-277, port.rs 153-163; lib.rs 993-1007 | when the descriptor that a poller gives out is readable, as a function of the kernel's part of the machines |
| `IocpM` | iocp/mod.rs 71-545, 610-643, 700-1263; iocp/port.rs; afd.rs 439-532; os/iocp.rs 196-225 | every call of any number of threads with the update queue and the `polling` flag, one step per access to shared memory or system call; sockets, waitable handles, posted packets, the wake-up packet.  The critical sections on a packet are atomic (justified by `IocpF`; the self-deadlock of C30 is explicit); `base_socket` and the AFD handle acquisition of `add` are one step that may fail |
| `IocpF` | iocp/mod.rs 788-1096 (`set_events`, `update`, `feed_event`, `begin_delete`, `cancel` and the callback 847-867); afd.rs 439-532, 573-647 | the sections of `IocpM` cut into lock, single accesses (fields of the packet, buffers, `in_use`, system calls) and unlock; the kernel writes a result into the buffers and queues the completion in two steps.  Everything outside of the sections is as in `IocpM`.  The deletion of a packet is observed when `begin_delete` sets its state; the call returns later.  `IocpM` also lets a cancellation fail after its operation completed; this has no counterpart in `IocpF`, so the converse of the refinement (`C49.atomic_runs_exist`) is about runs in which it does not happen |
| `AfdGroups` | iocp/mod.rs 548-594 | the search for an AFD handle with its reference counts |
| `AfdHandles` | afd.rs 342-348, 360-436; iocp/port.rs 170-196; iocp/mod.rs 584-593 | the system calls that make and close a helper, one step each, in a process that opens and closes other handles; the system reuses numbers.  The attributes of the device are in `Layout`; the conversion of `NTSTATUS` is not modelled |
| `KqFilters` | os/kqueue.rs 98-124, 149-287 | what `KqM` leaves out: the operation of a `Process`, the duration of a `Timer`, what a call was given and when the kernel gets it.  Every step of the poller is one of `KqM.step`.  Durations are exact (rounding by rustix and the kernel is not modelled); the counts in `data` and `fflags` of events are not read by the code |
| `Layout`, `AfdBytes` | afd.rs 30-110, 369-402, 439-517, 570-647; iocp/port.rs 88-106, 274-292; iocp/mod.rs 981-1003 | `repr(C)` layouts for 4- and 8-byte pointers, fields as bytes of one memory; the layout of the enum `PacketInner` is a parameter, as is where the `AfdPollInfo` is in it (Rust guarantees `Sound`).  `poll` is one step, and so is taking and reading a packet |
| `BaseSocket` | afd.rs 650-697 | the search for the socket of the base provider; `WSAIoctl` is a function of socket and code |
| `Ntdll` | afd.rs 173-315, 535-568; iocp/mod.rs 121-129 | loading of the functions of `ntdll` through a `OnceCell`; `std::sync::Once` is trusted: the closure runs in the first thread, others wait for it |
| `Hermit` | poll.rs 560-627 | flags and conversion of results of the shim for Hermit, and what poll.rs 272-280, 343-443 make of them |
| `Targets` | lib.rs 77-119, 962-976, 1009, 1034-1096; os.rs 3-16; kqueue.rs 397-401, 477-481; poll.rs 455-467, 630, 739; Cargo.toml 27-52 | the `cfg` conditions that select modules and dependencies; not: the conditions of tests, examples and documentation |
| `Lifecycle` | `Poller::new`, `Notifier::new`/`Notify::new` and `Drop` of every backend: epoll.rs 41-86, 257-273, 407-466; kqueue.rs 51-70, 278-288, 414-430, 457-467, 503-524, 552-555; port.rs 22-33; poll.rs 70-87, 657-691, 764-799; iocp/mod.rs 121-156; iocp/port.rs 110-116 | system calls in order, each of which may fail; the descriptor table with close-on-exec and non-blocking flags; the ownership rule of Rust (`OwnedFd` is closed when dropped; a value with a destructor runs it when a later step fails).  The state after a successful `new` is proved to be the initial state of `EpollM`, `KqM` and `PollTable` |
| `PacketRc` | reference counts of the IOCP packets: iocp/mod.rs 172-419, 495-542, 698-717, 720, 827-1096, 1196-1263; afd.rs 439-532; iocp/port.rs 86-108, 199-217, 274-310; dropping the poller | runs along with `IocpM`: each step carries the list of `Arc` operations (`pin`, `clone`, drop) and accesses the code makes; `into_raw`/`from_raw` move a reference to and from the kernel.  The user may clone and drop completion packets.  After the poller is dropped only the kernel and callbacks act; what they put into the closed port is lost.  A `clone` beyond `isize::MAX` references (abort) is not modelled |

Not modelled: `Debug`, tracing, `AsFd`/`AsRawFd` conversions of sources; `Events::clone`-like trivia;
the aliasing rules of Rust for the `unsafe` code of the IOCP packets (beyond "a packet is handed to the kernel by at most one
operation at a time", C26, "no packet is used after it was freed", C47, and "the process and the kernel use the buffers in turn", C50); the descriptors of the `poll` shim for Hermit (poll.rs 478-558).

Concurrency between `wait` and registration calls on epoll, kqueue and event ports happens in the kernel; the machines
interleave the calls at system-call granularity, in any order, with any number of threads that call `notify`; on kqueue,
poll and IOCP also with any number of threads making registration calls.

## 5. Disagreements between the code and the properties

Each of these is proved: the named theorem is a concrete run (or an argument for all runs) of the model in which the
property fails.  The strongest true part carries the suffix `_partial` where the property as stated is false.

| property | what the code does | theorem |
|---|---|---|
| C03, C17 | poll: `modify` with an unsupported mode returns an error after it has changed key and interest, so later events carry the key of the refused call | `C17.poll_failed_modify_changes_registration`, `C03.poll_wrong_key` |
| C04 | event ports: if `port_send` fails, the flag `notified` stays set and later notifications do nothing | `C04.port_notification_lost` |
| C04, C31, C39 | IOCP: if an update is refused while `wait` processes completions (only possible when the update queue is full), the remaining completions are dropped, among them a wake-up or posted packets; the flag stays set | `C04.iocp_notification_lost`, `C31.iocp_packets_lost`, `C39.iocp_failed_wait_disables_notify` |
| C05, C39 | poll: `wait` can fail with `WouldBlock` when a notification or a registration call races with it: it takes a wake-up byte that is not there yet (or, with an eventfd, is gone already); the notification is then lost and the flag stays set | `C05.poll_wait_fails_on_notify`, `C05.poll_wait_fails_on_registration`, `C05.poll_eventfd_wait_fails_sequentially`, `C05.poll_notification_lost`, `C39.poll_failed_wait_disables_notify` |
| C33 | poll on the PS Vita: `pop_notification` blocks (poll.rs:706-718).  When a registration call interrupts a blocked `wait`, that `wait` reads the byte of the call before the call does; the call then reads the empty pipe, with the table locked, until somebody makes another call | `C33.poll_vita_registration_hangs` |
| C05 | the same with a notification: a registration call takes its byte; the notified `wait` hangs in the blocking read, with the table locked, and further notifications are ignored | `C05.poll_vita_notified_wait_hangs` |
| C33 | poll on HermitOS: the eventfd is made without `EFD_NONBLOCK` (poll.rs:479 ignores the flags), so `pop_notification` blocks, and what it reads is the whole counter.  Of two concurrent registration calls the first takes what both have written; the second hangs, with the table locked | `C33.poll_hermit_registrations_hang` |
| C05 | HermitOS: one thread that calls `notify`, then `add`, then `wait` (with whatever timeout) hangs in `wait`: `add` has taken the notification, whose flag is still set; further notifications are ignored | `C05.poll_hermit_notified_wait_hangs` |
| C06, C35 | event ports and IOCP: a notification left in the queue because the buffer was full of events wakes a second `wait`; with a buffer of one event the queue of notifications grows without bound | `C06.port_notify_wakes_twice`, `C06.iocp_notify_wakes_twice`, `C35.port_queue_grows`, `C35.iocp_queue_grows` |
| C06, C21, C58 | kqueue: on kernels where `EV_ADD` keeps the flags of an existing knote the mode of a watched filter is not changed by `modify`; a program that changes edge to level mode is then never told of a descriptor that stays ready | `C21.kqueue_mode_kept`, `C06.kqueue_user_notify_sticks`, `C58.kqueue_live_mode_kept` |
| C07 | a panic in the backend poisons the lock, after which every `wait` returns `Ok(0)` | `C07.after_panic` (no disagreement with C07 as stated, but surprising) |
| C15 | poll: a one-shot source that was reported stays in the table without interest, and hang-up, error or invalid descriptor is reported again | `C15.poll_oneshot_violated` |
| C15, C32 | IOCP: a waitable handle in one-shot mode may deliver an empty event | `C32.waitable_spurious_event` |
| C19 | IOCP: if the OS refuses to cancel an AFD operation, a failed `delete` leaves it in flight | `C19.iocp_uncancelled_stays` |
| C52 | kqueue: `add_filter`, `modify_filter` and `delete_filter` panic if the number of a `Signal` is invalid; a panicking `add_filter` leaves the source recorded for good | `C52.kqueue_invalid_signal` |
| C53 | kqueue: the documentation says that `Signal` is always one-shot; the code uses the mode it is given | `C53.signal_repeats` |
| C54 | poll: an event may carry the key of a `modify` that failed; kqueue: of an `add` or `modify` that failed after one of its two changes was accepted; poll: hang-ups of one-shot sources are returned again; IOCP: of a `modify` that failed because the OS refused to cancel the operation in flight; IOCP: a `delete` that overlaps another `delete` of the same source returns before the source is silenced, so a `wait` that begins afterwards can still return its event | `C54.poll_does_not_conform`, `C54.kqueue_does_not_conform`, `C54.poll_hangup_more_than_once`, `C54.iocp_does_not_conform`, `C54.iocp_overlap_does_not_conform` |
| C46 | kqueue: `new` ignores `EPIPE` and `ENOENT` for the registration of the notifier and would return a poller that cannot be notified | `C46.kqueue_deaf_notifier` |
| C48 | IOCP: packets are leaked when the OS refuses an AFD poll, a wait registration, `post` or `notify`; when a waitable handle is removed before it is signaled (no error involved); and when the poller is dropped while completions are queued or AFD operations are in flight, also of sockets that were deleted before | `C48.refused_poll_leaks`, `C48.refused_register_leaks`, `C48.refused_post_leaks`, `C48.removed_waitable_leaks`, `C48.posted_then_dropped_leaks`, `C48.polled_then_dropped_leaks`, `C48.deleted_then_dropped_leaks` |
| C19 | IOCP: of two concurrent `delete`s of one source, the second may return while the first has not ended the registration, and an event is delivered afterwards | `C19.iocp_delete_returns_early` |
| C24 | kqueue: `add` records the source before the kernel is asked; a refused `add` leaves it recorded (and one of two filters may be watched) | `C24.kqueue_failed_add_is_remembered`, `C24.kqueue_failed_add_is_watched` |
| C24 | IOCP: `add` records the source before the AFD operation is started; a refused one leaves it recorded | `C24.iocp_failed_add_is_remembered` |
| C25 | IOCP: a received event used as interest makes its extra flags part of the interest, so an event with neither direction may come for conditions the user never named | `C25.iocp_unasked_event`, `C37.epoll_received_event_keeps_interest` (epoll) |
| C26, C29 | IOCP: a refused AFD operation leaves the packet marked as in use; no update of that socket has any effect afterwards | `C26.iocp_refused_is_forgotten`, `C29.iocp_update_lost` |
| C28, C58 | IOCP: a registration call that reads `polling = false` just before a `wait` sets it puts its update into the queue after the `wait` has drained it; the blocked `wait` does not see it.  The load is only `Acquire`: with an old value the same happens to a call that begins after the `wait` blocked | `C28.iocp_update_stranded`, `C28.iocp_stale_load_strands`, `C58.iocp_live_stranded` |
| C30 | IOCP: the branch for `LOCAL_CLOSE` would lock the packet's mutex twice; it is unreachable because that condition is never requested | `C30.iocp_never_stuck` |
| C32 | IOCP: an event of a waitable handle is delivered after `remove_waitable` returned if its completion was queued; if the callback was already dispatched, the wait even comes back to life in level mode and goes on reporting | `C32.event_after_removal`, `C32.removed_wait_comes_back` |
| C62 | epoll, poll: with `Event::none`, errors and hang-ups are still delivered, as readable and writable; in level mode by every `wait`, which never sleeps (a busy loop that `modify` cannot stop, only `delete`). Event ports: once after each `modify`. kqueue and IOCP sockets are silent (but see C66) | `C62.epoll_disabled_repeats`, `C62.poll_disabled_repeats`, `C62.port_disabled_delivers` |
| C66 | IOCP: a socket registered or modified with an interest that has neither direction (`Event::none`, or only `set_priority`) is still polled for aborts and failed connects (iocp/mod.rs:201, 794, 1278), but such a completion makes no event and `interest_error` stays set, so it is polled again, completes at once, and so on: `wait` runs in a loop at full CPU load, without a timeout for ever, and reports nothing; `set_interrupt` (hang-up) avoids it for aborts only | `C66.iocp_wait_spins` |
| C67 | kqueue: a `wait` without a timeout returns `Ok(0)` although `notify` was not called for it: on a kernel on which `EV_ADD` without `EV_CLEAR` takes the flag from the user filter (again and again), after a failed read from the own socket, and for an extension filter with the reserved key. IOCP: for a handle or packet with the reserved key | `C67.kqueue_empty_hands_more`, `C67.iocp_empty_hands_more` |
| C68 | epoll: a `wait` with a timeout that returned early leaves its timer armed (epoll.rs:167-190 sets it only at the beginning of a `wait`); when it expires, the descriptor of the poller is readable although there is nothing to return, and another event loop that watches it calls `wait` for nothing. kqueue: on a kernel whose `kqueue_poll` only looks for active filters, a level-triggered filter whose condition has gone does the same | `C68.epoll_alarm_false`, `C68.kqueue_alarm_false` |
| C70 | IOCP: `update_packet` (iocp/mod.rs:506-525) tries again each time it finds the queue of 1024 updates full; while no `wait` is running and another thread changes registrations fast enough, a call can go round forever (the limit in `drain_update_queue` bounds one round, not the number of rounds). poll: a registration call waits for the thread inside `poll()` to hand over the table | `C70.iocp_call_may_starve`, `C70.poll_call_waits` |
| C72 | IOCP: the same loop runs in the thread inside `wait` when it re-registers a source whose completion it processes (iocp/mod.rs:1049); with another thread that changes registrations fast enough, a `wait` that was handed an event may never return it | `C72.iocp_wait_may_starve` |
| C37 | poll and event ports ignore the interrupt and priority interest | `C37.poll_ignores_priority`, `C37.port_ignores_extra` |
| C39 | epoll and kqueue (without `EVFILT_USER`): if re-arming the notifier fails at the end of `wait`, `notified` stays set and notifications are disabled | `C39.epoll_failed_wait_disables_notify`, `C39.kqueue_pair_failed_wait_disables_notify` |
| C40 | `add_filter`, `modify_filter`, `add_waitable`, `modify_waitable`, `post` accept the reserved key; the events are then invisible | `C40.kqueue_reserved_key_accepted`, `C40.iocp_reserved_key_accepted` |
| C59 | poll: `wait` does not look at its deadline before it polls again for an operation of another thread (poll.rs:261-262), so a stream of `add`, `modify`, `delete` calls keeps a `wait` with a timeout from ending | `C59.poll_wait_delayed` |
| C59 | IOCP: a timeout above 4294967294 ms becomes `INFINITE` | `C59.iocp_long_timeout_lost` |
| C60 | kqueue: `add` enters the source and then looks for it again (kqueue.rs:87-92, 109); a `delete` of another thread in between makes `add` return `NotFound`, which no order of the two calls explains | `C60.kqueue_add_not_linearizable` |
| C60 | kqueue: a `delete` of another thread between the look of `modify` at the set of sources and its changes: both succeed, the source is not registered, but its filters are armed and a later `wait` delivers its events | `C60.kqueue_modify_outlives_delete` |
| C60 | IOCP: `delete` of a source that is not registered succeeds | `C60.iocp_delete_not_strict` |
| C42 | epoll and event ports: `is_connect_failed` needs both `ERR` and `HUP`; its documentation says "or" | `C42.epoll_is_connect_failed_doc_or_false`, `C42.port_is_connect_failed_doc_or_false` |

Further observations that contradict documentation rather than a property of the list:

* The documentation of `wait` says that events are appended; every backend replaces them (C38).  A `wait` that returns
  `Ok(0)` because another thread is waiting leaves the old events in the buffer (`C07.second_wait_returns`).
* Event ports accept a second `add`, and `modify` and `delete` of unknown sources; IOCP accepts `delete` of unknown sources
  (C18 is stated accordingly).
* `IoCompletionPort::wait` panics if the buffer has a capacity of 2^32 or more (iocp/port.rs:234).  Such a buffer has 128 GB;
  the theorems about the IOCP machine are about smaller buffers (`C52.iocp_wait_panics_iff`).
* `Length` of the name given to `NtCreateFile` counts the terminating zero (afd.rs:390), so the zero is part of the name of the
  device (`C65.device_name`).  AFD accepts any name below `\Device\Afd`.
* `Process` filters of one process with different operations have the same source (os/kqueue.rs:248-252), so the second
  `add_filter` fails with `AlreadyExists` (example in `Props/C64.lean`).
* "Modifying the timeout after it has been added to the poller will reset it" (os/kqueue.rs:259) is left to the kernel: if it
  keeps an unreported expiry, that is reported as an event of the new timer (`C64.stale_expiry_without_reset`).
* kqueue ignores `EPIPE`, so an `add` may succeed without any filter being watched (C21).
* Timeouts: `dur2timeout` maps everything from `u32::MAX` ms on to `INFINITE`; poll and epoll without timerfd clamp to
  `i32::MAX` ms (C09 is stated with this bound).
* poll: `wait(Some(0))` can block on the mutex and the condition variable while registration calls are in progress
  (C10 is about the OS call).
* Windows: a failure to load the functions of `ntdll` is kept for the life of the process, with its kind only
  (`C57.failure_is_kept`); a socket below two layers that do not answer `SIO_BASE_HANDLE` cannot be added, although
  `SIO_BSP_HANDLE_POLL` leads through both (`C56.two_broken_layers`).
* `polling_test_poll_backend` (a switch for developers) does not compile on Windows: `os::iocp` and `AsHandle` stay (`C61.test_backend_windows`).
* Hermit: `PollFlags::contains` tests for any flag instead of all; it is used with single flags only (`C20.hermit_contains`).

## 6. How the theorems were tested

`seeded/LOG.jsonl` records edits of the model that imitate realistic bugs, made in a scratch copy, with the theorems that
no longer hold and those that were tightened because they still did.
