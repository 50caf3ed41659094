import Verif.Model.Flags
import Verif.Model.Time
import Verif.Spec.Trace

/-
The epoll backend (epoll.rs) together with the portable layer (lib.rs `wait`/`notify`) and the part of the Linux
kernel they use, as a transition system.

* Every system call and every atomic operation is one step, so all interleavings of any number of threads are
  covered.  At most one thread is inside `wait` (lib.rs:735 `try_lock`): its position is `Phase`.  Threads inside
  `notify` between the compare-exchange and the write are only counted (`inflight`): they carry no other state.
* The kernel part is the contract of epoll(7), timerfd_settime(2) and eventfd(2)/pipe(2) as implemented in
  fs/eventpoll.c; it is part of the trusted base.  The steps `setReady` and `tick` are its environment.
-/

namespace Polling.EpollM
open Epoll Spec

/-- `EPOLLEXCLUSIVE | EPOLLWAKEUP | EPOLLONESHOT | EPOLLET`: not conditions but options (`EP_PRIVATE_BITS`).
(OS; the flags set at epoll.rs:279-293) -/
def PRIVATE : Flags := 0xF0000000#32

/-- What `Poller::new` (epoll.rs:41-86) created. -/
structure Cfg where
  /-- `timer_fd.is_some()` -/
  hasTimer : Bool
  timerFd : Fd
  /-- `notifier.as_fd()` (epoll.rs:461-469) -/
  notifFd : Fd
  /-- `Notifier::Pipe` rather than `Notifier::EventFd` -/
  pipe : Bool
  /-- number of threads that may call `notify` (arbitrary) -/
  threads : Nat
deriving DecidableEq, Repr

/-- The descriptor belongs to the poller. (epoll.rs:25-37: the fields of `Poller`) -/
def Cfg.internal (c : Cfg) (fd : Fd) : Bool := fd == c.notifFd || (c.hasTimer && fd == c.timerFd)

/-- An item of the interest list. (OS; made at epoll.rs:113) -/
structure Item where
  events : Flags
  data : BitVec 64
deriving DecidableEq, Repr

/-- Kernel state. (part of the OS, no counterpart in the code) -/
structure Kern where
  items : Fd → Option Item
  /-- the ready list -/
  rdl : List Fd
  /-- what `poll` on a user's file would report now -/
  user : Fd → Flags
  /-- value of the eventfd, or number of bytes in the pipe -/
  count : Nat
  /-- monotonic clock -/
  time : Nat
  /-- expiration of the timerfd, if armed -/
  expiry : Option Nat
  /-- the timerfd expired since it was last set (its readable condition) -/
  ticks : Bool

/-- What `poll` on a file reports.  Simplification: the writability of the poller's own descriptors is left out,
it is never asked for. (part of the OS, no counterpart in the code) -/
def ready (c : Cfg) (k : Kern) (fd : Fd) : Flags :=
  if fd = c.notifFd then (if k.count > 0 then IN else 0#32)
  else if c.hasTimer = true ∧ fd = c.timerFd then (if k.ticks then IN else 0#32)
  else k.user fd

/-- Kernel `ep_poll_callback`: a file woke its waiters for the conditions `key`. (part of the OS, no counterpart in the code) -/
def link (k : Kern) (fd : Fd) (key : Flags) : Kern :=
  match k.items fd with
  | none => k
  | some it =>
    if key &&& it.events &&& ~~~PRIVATE ≠ 0#32 ∧ fd ∉ k.rdl then { k with rdl := k.rdl ++ [fd] } else k

/-- Kernel: replace one item of the interest list. (part of the OS, no counterpart in the code) -/
def setItem (k : Kern) (fd : Fd) (it : Option Item) : Kern :=
  { k with items := fun x => if x = fd then it else k.items x }

/-- Kernel `epoll_ctl(EPOLL_CTL_ADD)`.  `fault`: any other error the OS may choose to return. (OS; called at epoll.rs:113) -/
def ctlAdd (c : Cfg) (fault : Option Err) (k : Kern) (fd : Fd) (flags : Flags) (data : BitVec 64) : Res × Kern :=
  match fault with
  | some e => (.err e, k)
  | none =>
    match k.items fd with
    | some _ => (.err .alreadyExists, k)
    | none =>
      let k := setItem k fd (some ⟨flags ||| ERR ||| HUP, data⟩)
      (.ok, link k fd (ready c k fd))

/-- Kernel `epoll_ctl(EPOLL_CTL_MOD)`. (OS; called at epoll.rs:133) -/
def ctlMod (c : Cfg) (fault : Option Err) (k : Kern) (fd : Fd) (flags : Flags) (data : BitVec 64) : Res × Kern :=
  match fault with
  | some e => (.err e, k)
  | none =>
    match k.items fd with
    | none => (.err .notFound, k)
    | some _ =>
      let k := setItem k fd (some ⟨flags ||| ERR ||| HUP, data⟩)
      (.ok, link k fd (ready c k fd))

/-- Kernel `epoll_ctl(EPOLL_CTL_DEL)`. (OS; called at epoll.rs:152) -/
def ctlDel (fault : Option Err) (k : Kern) (fd : Fd) : Res × Kern :=
  match fault with
  | some e => (.err e, k)
  | none =>
    match k.items fd with
    | none => (.err .notFound, k)
    | some _ =>
      let k := setItem k fd none
      (.ok, { k with rdl := k.rdl.filter (· ≠ fd) })

/-- epoll.rs:104-121 `add`. -/
def add (c : Cfg) (fault : Option Err) (k : Kern) (fd : Fd) (ev : Event EventExtra) (mode : PollMode) : Res × Kern :=
  ctlAdd c fault k fd (ctlFlags ev mode) (keyToU64 ev.key)

/-- epoll.rs:124-141 `modify`. -/
def modify (c : Cfg) (fault : Option Err) (k : Kern) (fd : Fd) (ev : Event EventExtra) (mode : PollMode) :
    Res × Kern :=
  ctlMod c fault k fd (ctlFlags ev mode) (keyToU64 ev.key)

/-- epoll.rs:144-155 `delete`. -/
def delete (fault : Option Err) (k : Kern) (fd : Fd) : Res × Kern := ctlDel fault k fd

/-- Kernel `timerfd_settime` with a relative value: zero disarms; the expiration count is reset. (OS; called at epoll.rs:184) -/
def settime (k : Kern) (value : Int × Int) : Kern :=
  let ns : Int := value.1 * 10 ^ 9 + value.2
  { k with ticks := false, expiry := if ns = 0 then none else some (k.time + ns.toNat) }

/-- Result of scanning the ready list. (part of the OS, no counterpart in the code) -/
structure Scan where
  evs : List (Fd × RawEvent)
  items : Fd → Option Item
  /-- not reached because the buffer was full -/
  rest : List Fd
  /-- level-triggered entries, put back at the end -/
  back : List Fd

/-- Kernel `ep_send_events`: go through the ready list, at most `room` events. (OS; called at epoll.rs:214) -/
def scan (rdy : Fd → Flags) : Nat → List Fd → (Fd → Option Item) → Scan
  | _, [], items => ⟨[], items, [], []⟩
  | 0, l, items => ⟨[], items, l, []⟩
  | room + 1, fd :: l, items =>
    match items fd with
    | none => scan rdy (room + 1) l items
    | some it =>
      let rev := rdy fd &&& it.events &&& ~~~PRIVATE
      if rev = 0#32 then scan rdy (room + 1) l items
      else
        let items' := if intersects it.events ONESHOT then
            fun x => if x = fd then some { it with events := it.events &&& PRIVATE } else items x
          else items
        let r := scan rdy room l items'
        { r with
          evs := (fd, ⟨it.data, rev⟩) :: r.evs
          back := if !intersects it.events ONESHOT && !intersects it.events ET then fd :: r.back else r.back }

/-- Kernel `epoll_wait`, successful part: the events and the new state. (OS; called at epoll.rs:214) -/
def harvest (c : Cfg) (k : Kern) (maxevents : Nat) : List (Fd × RawEvent) × Kern :=
  let r := scan (ready c k) maxevents k.rdl k.items
  (r.evs, { k with items := r.items, rdl := r.rest ++ r.back })

/-- Where the thread inside `Poller::wait` is. `dl`: the deadline of lib.rs:736; `cap`: capacity of the buffer. -/
inductive Phase where
  /-- no thread inside -/
  | idle
  /-- top of the loop, lib.rs:738 -/
  | top (dl : Option Nat) (cap : Nat)
  /-- lib.rs:744: the remaining time is computed; at the start of epoll.rs `wait` -/
  | sized (dl : Option Nat) (cap : Nat) (timeout : Option Duration)
  /-- epoll.rs:187: the timer is set, it is not yet armed in epoll -/
  | timed (dl : Option Nat) (cap : Nat) (timeout : Option Duration)
  /-- epoll.rs:214: blocked in `epoll_wait`, entered at time `t0` -/
  | polling (dl : Option Nat) (cap : Nat) (timeout : Option Duration) (t0 : Nat)
  /-- epoll.rs:222: `epoll_wait` returned; clearing the notification -/
  | clearing (dl : Option Nat) (cap : Nat) (evs : List (Fd × RawEvent))
  /-- epoll.rs:223: cleared, not yet re-armed -/
  | cleared (dl : Option Nat) (cap : Nat) (evs : List (Fd × RawEvent))
  /-- lib.rs:755: re-armed; `notified` not yet reset -/
  | rearmed (dl : Option Nat) (cap : Nat) (evs : List (Fd × RawEvent))
deriving DecidableEq, Repr

/-- The whole state. (epoll.rs:25-37, 407-420; lib.rs:434-438) -/
structure S where
  k : Kern
  /-- lib.rs `Poller::notified` -/
  notified : Bool
  /-- threads in `notify` between lib.rs:792 and the write of epoll.rs:472-484 -/
  inflight : Nat
  phase : Phase

/-- epoll.rs:41-86 `Poller::new` (successful): timerfd registered without interest, notifier with read interest. -/
def init (c : Cfg) (user : Fd → Flags) : S :=
  let k : Kern := ⟨fun _ => none, [], user, 0, 0, none, false⟩
  let k := if c.hasTimer then (add c none k c.timerFd (Event.none NOTIFY_KEY) .oneshot).2 else k
  let k := (add c none k c.notifFd (Event.onlyReadable NOTIFY_KEY) .oneshot).2
  ⟨k, false, 0, .idle⟩

/-- lib.rs:881-883 `Events::iter` over the raw events (epoll.rs:323-333). -/
def visible (evs : List (Fd × RawEvent)) : List (Event EventExtra) :=
  (evs.map fun e => toEvent e.2).filter fun ev => ev.key != NOTIFY_KEY

/-- Steps. (epoll.rs:89-242; lib.rs:548-800) -/
inductive Act where
  /-- lib.rs:548 / 653 / 688 by any thread.  `fault`: an error the OS chooses to return. -/
  | add (fd : Fd) (ev : Event EventExtra) (mode : PollMode) (fault : Option Err)
  | modify (fd : Fd) (ev : Event EventExtra) (mode : PollMode) (fault : Option Err)
  | delete (fd : Fd) (fault : Option Err)
  /-- lib.rs:792-796 compare-exchange -/
  | notifyCas
  /-- epoll.rs:472-484 write to the eventfd or pipe, and return -/
  | notifyWrite
  /-- lib.rs:735-736 take the lock and compute the deadline -/
  | waitBegin (timeout : Option Duration) (cap : Nat)
  /-- lib.rs:735, 760: the lock is taken -/
  | waitBusy
  /-- lib.rs:740-741: compute the remaining time -/
  | compute
  /-- epoll.rs:167-184: set the timer (if there is one) -/
  | settime (fault : Option Err)
  /-- epoll.rs:187-214: arm the timer in epoll, and enter `epoll_wait` -/
  | armTimer (fault : Option Err)
  /-- epoll.rs:214 `epoll_wait` returns with events or because its time is over -/
  | epollReturn
  /-- epoll.rs:214 `epoll_wait` fails -/
  | epollFail (e : Err)
  /-- epoll.rs:487-497: one `read` of `Notifier::clear` -/
  | clearRead
  /-- epoll.rs:223-227 re-arm the notifier -/
  | rearm (fault : Option Err)
  /-- lib.rs:755-758 reset `notified` and return -/
  | finish
  /-- a user's file changes to `flags` and/or wakes its waiters for `key` -/
  | setReady (fd : Fd) (flags key : Flags)
  /-- time passes -/
  | tick (dt : Nat)
deriving DecidableEq, Repr

/-- The events a user can build: lib.rs:186-430 only touch the `HUP` and `PRI` bits of the extra flags, and the
flags of received events contain no option bits (`C03.received_is_buildable`). -/
def buildable (ev : Event EventExtra) : Bool := ev.extra.flags &&& PRIVATE == 0#32

/-- Time limit of `epoll_wait(2)`: over, for the millisecond argument `ms`. (OS; epoll.rs:159-229) -/
def timeUp (ms : Int) (t0 now : Nat) : Bool := decide (ms ≥ 0) && decide (t0 + ms.toNat * 10 ^ 6 ≤ now)

/-- The backend's `wait` failed (lib.rs:744-752): retry if interrupted, else return the error. -/
def waitFail (s : S) (dl : Option Nat) (cap : Nat) (e : Err) : S × Obs EventExtra :=
  if e = .interrupted then ({ s with phase := .top dl cap }, .tau)
  else ({ s with phase := .idle }, .waitErr e)

/-- The effect of a step and what can be observed of it; `none` if the step is not possible.
(epoll.rs:89-242; lib.rs:548-800) -/
def step (c : Cfg) (s : S) : Act → Option (S × Obs EventExtra)
  | .add fd ev mode fault =>
    if c.internal fd then none  -- the poller's own descriptors are not accessible to users
    else if !buildable ev then none
    else if ev.key = NOTIFY_KEY then some (s, .failed .invalidInput)
    else match EpollM.add c fault s.k fd ev mode with
      | (.ok, k) => some ({ s with k }, .reg fd ev mode)
      | (.err e, k) => some ({ s with k }, .failed e)
  | .modify fd ev mode fault =>
    if c.internal fd then none
    else if !buildable ev then none
    else if ev.key = NOTIFY_KEY then some (s, .failed .invalidInput)
    else match EpollM.modify c fault s.k fd ev mode with
      | (.ok, k) => some ({ s with k }, .reg fd ev mode)
      | (.err e, k) => some ({ s with k }, .failed e)
  | .delete fd fault =>
    if c.internal fd then none
    else match EpollM.delete fault s.k fd with
      | (.ok, k) => some ({ s with k }, .unreg fd)
      | (.err e, k) => some ({ s with k }, .failed e)
  | .notifyCas =>
    if s.notified then some (s, .notified)
    else if s.inflight < c.threads then some ({ s with notified := true, inflight := s.inflight + 1 }, .tau)
    else none
  | .notifyWrite =>
    if s.inflight > 0 then
      let k := { s.k with count := s.k.count + 1 }
      some ({ s with k := link k c.notifFd IN, inflight := s.inflight - 1 }, .notified)
    else none
  | .waitBegin timeout cap =>
    match s.phase with
    | .idle =>
      if cap = 0 then none  -- lib.rs:832-855: the capacity is non-zero
      else some ({ s with phase := .top (timeout.bind fun t => instantCheckedAdd unixMaxNs s.k.time t) cap }, .waitBegin)
    | _ => none
  | .waitBusy =>
    match s.phase with
    | .idle => none
    | _ => some (s, .waitBusy)
  | .compute =>
    match s.phase with
    | .top dl cap =>
      some ({ s with phase := .sized dl cap (dl.map fun d => saturatingSince d s.k.time) }, .tau)
    | _ => none
  | .settime fault =>
    match s.phase with
    | .sized dl cap timeout =>
      if c.hasTimer then
        match fault with
        | some e => some (waitFail s dl cap e)
        | none => some ({ s with k := EpollM.settime s.k (timerValue timeout), phase := .timed dl cap timeout }, .tau)
      else some ({ s with phase := .timed dl cap timeout }, .tau)
    | _ => none
  | .armTimer fault =>
    match s.phase with
    | .timed dl cap timeout =>
      if c.hasTimer then
        match EpollM.modify c fault s.k c.timerFd (Event.onlyReadable NOTIFY_KEY) .oneshot with
        | (.ok, k) => some ({ s with k, phase := .polling dl cap timeout k.time }, .tau)
        | (.err e, k) => some (waitFail { s with k } dl cap e)
      else some ({ s with phase := .polling dl cap timeout s.k.time }, .tau)
    | _ => none
  | .epollReturn =>
    match s.phase with
    | .polling dl cap timeout t0 =>
      let (evs, k) := harvest c s.k cap
      if evs ≠ [] ∨ timeUp (epollTimeoutMs c.hasTimer timeout) t0 s.k.time = true then
        some ({ s with k, phase := .clearing dl cap evs },
          .deliver ((evs.filter fun e => !c.internal e.1).map fun e => (e.1, toEvent e.2)))
      else none
    | _ => none
  | .epollFail e =>
    match s.phase with
    | .polling dl cap _ _ => some (waitFail s dl cap e)
    | _ => none
  | .clearRead =>
    match s.phase with
    | .clearing dl cap evs =>
      if c.pipe = true ∧ s.k.count > 0 then some ({ s with k := { s.k with count := s.k.count - 1024 } }, .tau)
      else some ({ s with k := { s.k with count := 0 }, phase := .cleared dl cap evs }, .tau)
    | _ => none
  | .rearm fault =>
    match s.phase with
    | .cleared dl cap evs =>
      match EpollM.modify c fault s.k c.notifFd (Event.onlyReadable NOTIFY_KEY) .oneshot with
      | (.ok, k) => some ({ s with k, phase := .rearmed dl cap evs }, .tau)
      | (.err e, k) => some (waitFail { s with k } dl cap e)
    | _ => none
  | .finish =>
    match s.phase with
    | .rearmed _ _ evs => some ({ s with notified := false, phase := .idle },
        .waitOk (visible evs).length (visible evs))
    | _ => none
  | .setReady fd flags key =>
    if c.internal fd then none
    else if flags &&& ~~~(s.k.user fd) &&& ~~~key ≠ 0#32 then none  -- a new condition always wakes the waiters
    else
      let k := { s.k with user := fun x => if x = fd then flags else s.k.user x }
      some ({ s with k := link k fd key }, .tau)
  | .tick dt =>
    let t := s.k.time + dt
    match s.k.expiry with
    | none => some ({ s with k := { s.k with time := t } }, .tau)
    | some x =>
      if x ≤ t then
        let k := { s.k with time := t, expiry := none, ticks := true }
        some ({ s with k := if c.hasTimer then link k c.timerFd IN else k }, .tau)
      else some ({ s with k := { s.k with time := t } }, .tau)

/-- Reachable states with the trace that led to them. (plumbing of the model, no counterpart in the code) -/
inductive Reach (c : Cfg) : S → List (Obs EventExtra) → Prop
  | init (user) : Reach c (init c user) []
  | step {s tr a s' o} : Reach c s tr → step c s a = some (s', o) → Reach c s' (o :: tr)

/-- Reachable states with the trace that led to them, by steps that satisfy `P` only.
(plumbing of the model, no counterpart in the code) -/
inductive ReachP (c : Cfg) (P : Act → Prop) : S → List (Obs EventExtra) → Prop
  | init (user) : ReachP c P (init c user) []
  | step {s tr a s' o} : ReachP c P s tr → P a → step c s a = some (s', o) → ReachP c P s' (o :: tr)

/-- The OS does not refuse to re-arm the notifier at the end of epoll.rs `wait` (line 222-227).  All other calls
may fail in any way. -/
def RearmWorks : Act → Prop
  | .rearm (some _) => False
  | _ => True

/-- Run a list of steps. (plumbing of the model, no counterpart in the code) -/
def runActs (c : Cfg) (s : S) : List Act → Option (S × List (Obs EventExtra))
  | [] => some (s, [])
  | a :: as => (step c s a).bind fun r => (runActs c r.1 as).map fun q => (q.1, q.2 ++ [r.2])

end Polling.EpollM
