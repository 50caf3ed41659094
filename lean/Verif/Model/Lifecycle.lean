import Verif.Model.EpollM
import Verif.Model.KqM
import Verif.Model.PollTable

/-!
Creation and destruction of a poller: which descriptors are opened, how their flags are set, what
is closed when a step of `Poller::new` fails, what `Drop` does.

The process' descriptor table is part of the state.  The ownership rules of Rust are modelled once, by `scope`: an
`OwnedFd` that is dropped (because the function returns early with `?`, or because the value is not part of the result) is
closed.  The OS chooses for each system call whether it fails, and which number a new descriptor gets.
-/

namespace Polling.Life

/-- Flags of an open descriptor. (part of the OS, no counterpart in the code) -/
structure Info where
  /-- `FD_CLOEXEC` -/
  cloexec : Bool
  /-- `O_NONBLOCK` -/
  nonblock : Bool
deriving DecidableEq, Repr

/-- The system calls that are made.
(epoll.rs:41-86, 257-272, 407-458; kqueue.rs:51-70, 279-289; port.rs:22-33; poll.rs:70-89; iocp/mod.rs:121-155) -/
inductive Sys where
  | epollCreate | eventfd | timerfdCreate | pipe2 | pipe | socketpair | kqueue | portCreate
  | getfd | setfd | getfl | setfl | ctl | kevent
  | ntdll | afd | iocp
deriving DecidableEq, Repr

/-- State: the process' descriptor table, the `OwnedFd`s held by the function that runs, the number of system calls
made, and the kernel object of the poller (its interest list). (part of the OS, no counterpart in the code) -/
structure W (K : Type) where
  tbl : Fd → Option Info
  /-- a descriptor that was not open was closed (close(2) fails with `EBADF`, or hits a descriptor of someone else) -/
  bad : Bool
  owned : List Fd
  n : Nat
  k : K

/-- Choices of the OS, by the number of the system call. (part of the OS, no counterpart in the code) -/
structure Os where
  fault : Sys → Nat → Option Err
  fd : Nat → Fd
  fd2 : Nat → Fd
  /-- errno reported for a single change of `kevent` -/
  errno : Nat → Option Nat

/-- Code that may return early with an error. (Rust: `io::Result`) -/
def M (K α : Type) := W K → Except Err α × W K

variable {K α β : Type}

/-- `Ok(a)` (semantics of Rust, no counterpart in the code) -/
def ret (a : α) : M K α := fun w => (.ok a, w)
/-- `?` (semantics of Rust, no counterpart in the code) -/
def andThen (m : M K α) (f : α → M K β) : M K β := fun w =>
  match m w with
  | (.ok a, w) => f a w
  | (.error e, w) => (.error e, w)
instance : Monad (M K) where
  pure := ret
  bind := andThen

/-- The result as a value: `.ok()`, `match`, `.or_else(..)`, `let _ =`.
(calls whose failure is ignored: epoll.rs:50-54, 257-272, kqueue.rs:279-289) -/
def attempt (m : M K α) : M K (Option α) := fun w =>
  match m w with
  | (.ok a, w) => (.ok (some a), w)
  | (.error _, w) => (.ok none, w)

/-- A part of the code that is compiled, or reached, only if `on`. (`cfg` attributes, e.g. epoll.rs:47-55) -/
def attemptIf (on : Bool) (m : M K α) : M K (Option α) := if on then attempt m else ret none

/-- The descriptor table with one entry replaced. (part of the OS, no counterpart in the code) -/
def setTbl (tbl : Fd → Option Info) (fd : Fd) (i : Option Info) : Fd → Option Info := fun x => if x = fd then i else tbl x

/-- close(2), by the `Drop` of `OwnedFd`. (OS; Rust `OwnedFd`) -/
def close (w : W K) (fd : Fd) : W K := { w with tbl := setTbl w.tbl fd none, bad := w.bad || (w.tbl fd).isNone }

/-- Several descriptors, one after the other. (semantics of Rust, no counterpart in the code) -/
def closeAll (w : W K) (fds : List Fd) : W K := fds.foldl close w

/-- The ownership rule of Rust for a function: what it owns is closed if it returns an error, and what is not moved
into the result is closed if it succeeds. (semantics of Rust, no counterpart in the code) -/
def scope (moved : α → List Fd) (m : M K α) : M K α := fun w =>
  match m { w with owned := [] } with
  | (.ok a, w') => (.ok a, { closeAll w' (w'.owned.filter fun fd => decide (fd ∉ moved a)) with
      owned := w.owned ++ moved a })
  | (.error e, w') => (.error e, { closeAll w' w'.owned with owned := w.owned })

variable (os : Os)

/-- A system call, of which only success or failure matters. (part of the OS, no counterpart in the code) -/
def sys (s : Sys) : M K Unit := fun w =>
  (match os.fault s w.n with | some e => .error e | none => .ok (), { w with n := w.n + 1 })

/-- `EMFILE` (part of the OS, no counterpart in the code) -/
def EMFILE : Err := .os 24

/-- A system call that opens a descriptor: an unused number, or an error.
(OS; epoll.rs:45, 50-54, 430, kqueue.rs:53, port.rs:23) -/
def openFd (s : Sys) (i : Info) : M K Fd := fun w =>
  let w' := { w with n := w.n + 1 }
  match os.fault s w.n with
  | some e => (.error e, w')
  | none =>
    let fd := os.fd w.n
    if w.tbl fd = none then
      (.ok fd, { w' with tbl := setTbl w.tbl fd (some i), owned := w.owned ++ [fd] })
    else (.error EMFILE, w')

/-- A system call that opens two descriptors (`pipe`, `socketpair`). (OS; epoll.rs:446-447, kqueue.rs:506, poll.rs:660) -/
def openPair (s : Sys) (i : Info) : M K (Fd × Fd) := fun w =>
  let w' := { w with n := w.n + 1 }
  match os.fault s w.n with
  | some e => (.error e, w')
  | none =>
    let a := os.fd w.n
    let b := os.fd2 w.n
    if w.tbl a = none ∧ w.tbl b = none ∧ a ≠ b then
      (.ok (a, b), { w' with tbl := setTbl (setTbl w.tbl a (some i)) b (some i), owned := w.owned ++ [a, b] })
    else (.error EMFILE, w')

/-- `fcntl_getfd` (OS; epoll.rs:448-449, kqueue.rs:54, port.rs:24, poll.rs:660-681) -/
def getfd (fd : Fd) : M K Bool := do sys os .getfd; fun w => (.ok (((w.tbl fd).map (·.cloexec)).getD false), w)
/-- `fcntl_setfd` (OS; epoll.rs:448-449, kqueue.rs:54, port.rs:25, poll.rs:660-681) -/
def setfd (fd : Fd) (b : Bool) : M K Unit := do
  sys os .setfd; fun w => (.ok (), { w with tbl := setTbl w.tbl fd ((w.tbl fd).map fun i => { i with cloexec := b }) })
/-- `fcntl_getfl` (OS; epoll.rs:453, poll.rs:660-681) -/
def getfl (fd : Fd) : M K Bool := do sys os .getfl; fun w => (.ok (((w.tbl fd).map (·.nonblock)).getD false), w)
/-- `fcntl_setfl`; also `set_nonblocking` of a socket. (OS; epoll.rs:453, poll.rs:660-681, kqueue.rs:506-508) -/
def setfl (fd : Fd) (b : Bool) : M K Unit := do
  sys os .setfl; fun w => (.ok (), { w with tbl := setTbl w.tbl fd ((w.tbl fd).map fun i => { i with nonblock := b }) })

/-- The fallback when `pipe2` is not there: epoll.rs:446-451, poll.rs:661-666. -/
def fallbackPipe : M K (Fd × Fd) := scope (fun p => [p.1, p.2]) do
  let (r, w) ← openPair os .pipe ⟨false, false⟩
  let f ← getfd os r
  setfd os r (f || true)
  let f ← getfd os w
  setfd os w (f || true)
  ret (r, w)

/-- `.or_else(..)` of epoll.rs:446 and poll.rs:669. -/
def pipeOrFallback : Option (Fd × Fd) → M K (Fd × Fd)
  | some p => ret p
  | none => fallbackPipe os

/-- epoll.rs:446-453 (and poll.rs:661-675): a pipe whose read end does not block.  `hasPipe2`: not on haiku. -/
def newPipe (hasPipe2 : Bool) : M K (Fd × Fd) := scope (fun p => [p.1, p.2]) do
  let first ← attemptIf hasPipe2 (openPair os .pipe2 ⟨true, false⟩)
  let (r, w) ← pipeOrFallback os first
  let f ← getfl os r
  setfl os r (f || true)
  ret (r, w)

/-! ### epoll -/

/-- epoll.rs:407-420 `Notifier` -/
inductive Notifier where
  | eventFd (fd : Fd)
  | pipe (r w : Fd)
deriving DecidableEq, Repr

/-- The `OwnedFd`s of epoll.rs:407-420. -/
def Notifier.fds : Notifier → List Fd
  | .eventFd fd => [fd]
  | .pipe r w => [r, w]

/-- epoll.rs:461-469 `as_fd` -/
def Notifier.asFd : Notifier → Fd
  | .eventFd fd => fd
  | .pipe r _ => r

/-- epoll.rs:431-458 the rest of `Notifier::new` after the attempt to make an eventfd. -/
def eventfdOrPipe : Option Fd → M K Notifier
  | some fd => ret (.eventFd fd)
  | none => do
    let (r, w) ← newPipe os true
    ret (.pipe r w)

/-- epoll.rs:424-458 `Notifier::new`.  `noEventfd`: `cfg!(polling_test_epoll_pipe)` or redox. -/
def notifierNew (noEventfd : Bool) : M K Notifier := scope Notifier.fds do
  let first ← attemptIf (!noEventfd) (openFd os .eventfd ⟨true, true⟩)
  eventfdOrPipe os first

/-- epoll.rs:25-37 `Poller` -/
structure EpollPoller where
  epollFd : Fd
  notifier : Notifier
  timerFd : Option Fd
deriving DecidableEq, Repr

/-- The `OwnedFd`s of epoll.rs:25-37. -/
def EpollPoller.fds (p : EpollPoller) : List Fd := [p.epollFd] ++ p.notifier.fds ++ p.timerFd.toList

/-- What the machine `EpollM` needs to know of the poller. (epoll.rs:25-37) -/
def EpollPoller.cfg (threads : Nat) (p : EpollPoller) : EpollM.Cfg where
  hasTimer := p.timerFd.isSome
  timerFd := p.timerFd.getD 0
  notifFd := p.notifier.asFd
  pipe := match p.notifier with | .eventFd _ => false | .pipe .. => true
  threads := threads

/-- epoll.rs:104-121 `add` -/
def epollAdd (p : EpollPoller) (fd : Fd) (ev : Event Epoll.EventExtra) (mode : PollMode) : M EpollM.Kern Unit := fun w =>
  match EpollM.add (p.cfg 0) (os.fault .ctl w.n) w.k fd ev mode with
  | (.ok, k) => (.ok (), { w with n := w.n + 1, k })
  | (.err e, k) => (.error e, { w with n := w.n + 1, k })

/-- epoll.rs:144-155 `delete` -/
def epollDelete (fd : Fd) : M EpollM.Kern Unit := fun w =>
  match EpollM.delete (os.fault .ctl w.n) w.k fd with
  | (.ok, k) => (.ok (), { w with n := w.n + 1, k })
  | (.err e, k) => (.error e, { w with n := w.n + 1, k })

/-- epoll.rs:257-272 `Drop for Poller` with the drops of the fields: the timer is taken out, removed from epoll and closed;
the notifier is removed; the fields are dropped.  The timer: -/
def epollDropTimer : Option Fd → M EpollM.Kern Unit
  | some t => do
    let _ ← attempt (epollDelete os t)
    fun w => (.ok (), closeAll w [t])
  | none => ret ()

/-- The whole of it. (epoll.rs:257-272) -/
def epollDrop (p : EpollPoller) : M EpollM.Kern Unit := do
  epollDropTimer os p.timerFd
  let _ ← attempt (epollDelete os p.notifier.asFd)
  fun w => (.ok (), closeAll w ([p.epollFd] ++ p.notifier.fds))

/-- Rust: the `OwnedFd`s `fds` are moved into a value with a destructor, which runs if the rest of the function fails.
(semantics of Rust, no counterpart in the code) -/
def orDrop (fds : List Fd) (drop : M K Unit) (m : M K α) : M K α := fun w =>
  match m { w with owned := w.owned.filter fun fd => decide (fd ∉ fds) } with
  | (.ok a, w) => (.ok a, w)
  | (.error e, w) => (.error e, (drop w).2)

/-- epoll.rs:64-71: the registration of the timer. -/
def epollSetupTimer (p : EpollPoller) : Option Fd → M EpollM.Kern Unit
  | some t => epollAdd os p t (Event.none NOTIFY_KEY) .oneshot
  | none => ret ()

/-- epoll.rs:63-78: the registrations of `Poller::new`. -/
def epollSetup (p : EpollPoller) : M EpollM.Kern Unit := do
  epollSetupTimer os p p.timerFd
  epollAdd os p p.notifier.asFd (Event.onlyReadable NOTIFY_KEY) .oneshot

/-- epoll.rs:41-61: the descriptors of a new poller.  `redox`: no timerfd. -/
def epollBuild (noEventfd redox : Bool) : M EpollM.Kern EpollPoller := do
  let ep ← openFd os .epollCreate ⟨true, false⟩
  let notifier ← notifierNew os noEventfd
  let timer ← attemptIf (!redox) (openFd os .timerfdCreate ⟨true, true⟩)
  ret ⟨ep, notifier, timer⟩

/-- epoll.rs:41-86 `Poller::new`. -/
def epollNew (noEventfd redox : Bool) : M EpollM.Kern EpollPoller := scope EpollPoller.fds do
  let p ← epollBuild os noEventfd redox
  orDrop p.fds (epollDrop os p) (epollSetup os p)
  ret p

/-! ### kqueue -/

/-- kqueue.rs `notify::Notify`: nothing (`EVFILT_USER`, kqueue.rs:402-475) or a pair of sockets (482-561). -/
inductive KqNotify where
  | user
  | pair (r w : Fd)
deriving DecidableEq, Repr

/-- The `UnixStream`s of kqueue.rs:495-501. -/
def KqNotify.fds : KqNotify → List Fd
  | .user => []
  | .pair r w => [r, w]

/-- kqueue.rs:16-30 `Poller`; the set `sources` is part of the kernel object `KqState` here. -/
structure KqPoller where
  kqueueFd : Fd
  notify : KqNotify
deriving DecidableEq, Repr

/-- The `OwnedFd`s of kqueue.rs:16-30. -/
def KqPoller.fds (p : KqPoller) : List Fd := [p.kqueueFd] ++ p.notify.fds

/-- What the machine `KqM` needs to know of the poller. (kqueue.rs:16-30) -/
def KqPoller.cfg (c : KqM.Cfg) (p : KqPoller) : KqM.Cfg := { c with notifFd := (p.notify.fds.head?).getD 0 }

/-- The interest list of the kernel and the set `sources`. (kqueue.rs:16-30) -/
structure KqState where
  k : KqM.Kern
  sources : KqSpec.Source → Bool

/-- kqueue.rs:505-514 `Notify::new`: std's `UnixStream::pair` sets `FD_CLOEXEC`. -/
def kqPairNew : M K KqNotify := scope KqNotify.fds do
  let (r, w) ← openPair os .socketpair ⟨true, false⟩
  setfl os r true
  setfl os w true
  ret (.pair r w)

/-- kqueue.rs:416-418 and 505-514 `Notify::new`. -/
def kqNotifyNew (user : Bool) : M K KqNotify := if user then ret .user else kqPairNew os

/-- kqueue.rs:143-173 `submit_changes` (see `Model/KqSubmit.lean`): the system call fails, or each change is processed. -/
def kqSubmit (c : KqM.Cfg) (chg : List Kqueue.KEvent) : M KqState Unit := fun w =>
  match os.fault .kevent w.n with
  | some e => (.error e, { w with n := w.n + 1 })
  | none =>
    let step := fun (x : W KqState × List Kqueue.KEvent) ev =>
      let r := KqM.register c (os.errno x.1.n) x.1.k.k ev
      ({ x.1 with n := x.1.n + 1, k := { x.1.k with k := r.2 } }, x.2 ++ [KqM.receipt ev r.1])
    let r := chg.foldl step ({ w with n := w.n + 1 }, [])
    (match KqM.submitResult r.2 with | .ok => .ok () | .err e => .error e, r.1)

/-- kqueue.rs:87-92 `add` of the notifier's descriptor: `add_source`, then `modify`. -/
def kqAdd (c : KqM.Cfg) (fd : Fd) : M KqState Unit := fun w =>
  if w.k.sources (.fd fd) then (.error .alreadyExists, w)
  else kqSubmit os c (KqM.fdChanges fd (Event.onlyReadable NOTIFY_KEY) .oneshot)
    { w with k := { w.k with sources := fun x => if x = .fd fd then true else w.k.sources x } }

/-- kqueue.rs:221-226 `delete`: `modify` without interest, then `remove_source`. -/
def kqDelete (c : KqM.Cfg) (fd : Fd) : M KqState Unit := do
  fun w => if w.k.sources (.fd fd) then (.ok (), w) else (.error .notFound, w)
  kqSubmit os c (KqM.fdChanges fd (Event.none 0) .oneshot)
  fun w => (.ok (), { w with k := { w.k with sources := fun x => if x = .fd fd then false else w.k.sources x } })

/-- kqueue.rs:421-432 and 517-526 `Notify::register`. -/
def kqRegister (c : KqM.Cfg) : KqNotify → M KqState Unit
  | .user => kqSubmit os c [KqM.userChange false]
  | .pair r _ => kqAdd os c r

/-- kqueue.rs:457-468 and 551-554 `Notify::deregister`. -/
def kqDeregister (c : KqM.Cfg) : KqNotify → M KqState Unit
  | .user => kqSubmit os c [{ filter := .user 0, flags := { delete := true, receipt := true }, udata := keyToU64 NOTIFY_KEY }]
  | .pair r _ => kqDelete os c r

/-- kqueue.rs:279-289 `Drop for Poller`, then the fields are dropped. -/
def kqDrop (c : KqM.Cfg) (p : KqPoller) : M KqState Unit := do
  let _ ← attempt (kqDeregister os c p.notify)
  fun w => (.ok (), closeAll w p.fds)

/-- kqueue.rs:51-60: the descriptors of a new poller. -/
def kqBuild (user : Bool) : M K KqPoller := do
  let kq ← openFd os .kqueue ⟨false, false⟩
  setfd os kq true
  let n ← kqNotifyNew os user
  ret ⟨kq, n⟩

/-- kqueue.rs:51-70 `Poller::new`. -/
def kqNew (c : KqM.Cfg) : M KqState KqPoller := scope KqPoller.fds do
  let p ← kqBuild os c.user
  orDrop p.fds (kqDrop os (p.cfg c) p) (kqRegister os (p.cfg c) p.notify)
  ret p

/-! ### event ports -/

/-- port.rs:22-33 `Poller::new`; there is no `Drop` beyond that of `port_fd`. -/
def portNew : M K Fd := scope (fun fd => [fd]) do
  let fd ← openFd os .portCreate ⟨false, false⟩
  let f ← getfd os fd
  setfd os fd (f || true)
  ret fd

/-! ### poll -/

/-- poll.rs:660-681 and 764-790 `Notify::new`.  `chan`: pipe (with or without `pipe2`) or eventfd (ESP-IDF, hermit; no
flags: neither system has `exec`, and eventfds do not block there). -/
inductive PollChan where
  | pipe (hasPipe2 : Bool)
  | eventfd
deriving DecidableEq, Repr

/-- `POLLRDNORM` (poll.rs:690) -/
def RDNORM : PollFlags.Flags := 0x40#16

/-- The descriptors of poll.rs `Notify` (equal for the eventfd) and the conditions they are polled for
(poll.rs:689-691, 798-800: `RDNORM` and `IN`). -/
def pollNotifyNew : PollChan → M K PollB.NotifyFds
  | .pipe hasPipe2 => scope (fun n => [n.readFd, n.writeFd]) do
    let (r, w) ← newPipe os hasPipe2
    ret ⟨r, w, RDNORM⟩
  | .eventfd => scope (fun n => [n.readFd]) do
    let fd ← openFd os .eventfd ⟨false, true⟩
    ret ⟨fd, fd, PollFlags.IN⟩

/-- poll.rs:70-89 `Poller::new`: the notifier and a table with its descriptor. -/
def pollNew (chan : PollChan) : M K (PollB.NotifyFds × PollB.Fds) := do
  let n ← pollNotifyNew os chan
  ret (n, PollB.Fds.init n)

/-! ### IOCP -/

/-- `.map_err(|e| io::Error::new(ErrorKind::Unsupported, ..))` (iocp/mod.rs:124-137) -/
def asUnsupported (m : M K α) : M K α := fun w =>
  match m w with
  | (.ok a, w) => (.ok a, w)
  | (.error _, w) => (.error .unsupported, w)

/-- iocp/mod.rs:131-137: an AFD handle is made and dropped, to see whether that works. -/
def afdProbe : M K Unit := scope (fun _ => []) do
  let _ ← openFd os .afd ⟨true, false⟩
  ret ()

/-- iocp/mod.rs:121-155 `Poller::new` (windows handles are not inherited unless asked for: `cloexec`).  The result is the
handle of the completion port, closed by `Drop for IoCompletionPort` (iocp/port.rs:117-123). -/
def iocpNew : M K Fd := scope (fun fd => [fd]) do
  asUnsupported (sys os .ntdll)
  asUnsupported (afdProbe os)
  openFd os .iocp ⟨true, false⟩

end Polling.Life
