import Verif.Model.Flags
import Verif.Model.Time
import Verif.Spec.Trace

/-
The event port backend (port.rs) together with the portable layer (lib.rs `wait`/`notify`) and the part of the
illumos/Solaris kernel they use, as a transition system.

* Every system call and every atomic operation is one step.  At most one thread is inside `wait` (lib.rs:735 `try_lock`):
  its position is `Phase`.  Threads inside `notify` between the compare-exchange and `port_send` are counted.
* The kernel part is the contract of port_associate(3C), port_dissociate(3C), port_get(3C) and port_send(3C): a descriptor has
  at most one association and at most one queued event; associating it again replaces events and user data, discards a queued
  event and looks at the descriptor anew; retrieving the event ends the association; dissociating discards a queued event;
  the queue is first in, first out.  It is part of the trusted base.
-/

namespace Polling.PortM
open Port Spec PollFlags

/-- An association. (OS; made at port.rs:80) -/
structure Assoc where
  events : Flags
  user : BitVec 64
deriving DecidableEq, Repr

/-- An entry of the event queue. (OS; read at port.rs:176-212) -/
inductive Entry where
  /-- sent by `port_send` -/
  | user (events : BitVec 32) (data : BitVec 64)
  /-- of an associated descriptor -/
  | fd (fd : Fd)
deriving DecidableEq, Repr

/-- Kernel state. (part of the OS, no counterpart in the code) -/
structure Kern where
  assoc : Fd → Option Assoc
  queue : List Entry
  /-- the conditions to be reported by the queued event of a descriptor -/
  pend : Fd → Flags
  /-- what `poll` on a file would report now -/
  cond : Fd → Flags
  /-- monotonic clock -/
  time : Nat

/-- Reported without being asked for: poll(2). (part of the OS, no counterpart in the code) -/
def ALWAYS : Flags := ERR ||| HUP ||| NVAL

/-- Kernel `pollwakeup`: the file woke its waiters for the conditions `key`; also what `port_associate` does with the conditions
that hold already. (part of the OS, no counterpart in the code) -/
def wake (k : Kern) (fd : Fd) (key : Flags) : Kern :=
  match k.assoc fd with
  | none => k
  | some a =>
    let r := key &&& (a.events ||| ALWAYS)
    if r = 0#16 then k
    else if .fd fd ∈ k.queue then { k with pend := fun x => if x = fd then k.pend fd ||| r else k.pend x }
    else { k with queue := k.queue ++ [.fd fd], pend := fun x => if x = fd then r else k.pend x }

/-- Kernel: remove the association, if any, and its queued event. (part of the OS, no counterpart in the code) -/
def drop (k : Kern) (fd : Fd) : Kern :=
  { k with assoc := fun x => if x = fd then none else k.assoc x, queue := k.queue.filter (· ≠ .fd fd) }

/-- Kernel `port_associate` of a descriptor.  `fault`: any error the OS may choose to return. (OS; called at port.rs:80) -/
def associate (fault : Option Err) (k : Kern) (fd : Fd) (events : Flags) (user : BitVec 64) : Res × Kern :=
  match fault with
  | some e => (.err e, k)
  | none =>
    let k := drop k fd
    (.ok, wake { k with assoc := fun x => if x = fd then some ⟨events, user⟩ else k.assoc x } fd (k.cond fd))

/-- The result of `port_dissociate`: `ENOENT` is 2. (OS; called at port.rs:95) -/
def dissociate (fault : Option Err) (k : Kern) (fd : Fd) : Res × Kern :=
  match fault with
  | some e => (.err e, k)
  | none =>
    match k.assoc fd with
    | none => (.err .notFound, k)
    | some _ => (.ok, drop k fd)

/-- port.rs:56-84 `modify`. -/
def modify (fault : Option Err) (k : Kern) (fd : Fd) (ev : Event EventExtra) (mode : PollMode) : Res × Kern :=
  let flags := assocFlags ev
  if mode ≠ .oneshot then (.err .unsupported, k)
  else associate fault k fd flags (keyToU64 ev.key)

/-- port.rs:50-53 `add`. -/
def add (fault : Option Err) (k : Kern) (fd : Fd) (ev : Event EventExtra) (mode : PollMode) : Res × Kern :=
  modify fault k fd ev mode

/-- port.rs:87-104 `delete` (`ENOENT` becomes `Ok`). -/
def delete (fault : Option Err) (k : Kern) (fd : Fd) : Res × Kern :=
  match dissociate fault k fd with
  | (.err .notFound, k) => (.ok, k)
  | r => r

/-- What `port_getn` stores for an entry, with the descriptor it belongs to. (OS; read at port.rs:176-212) -/
def rawOf (k : Kern) : Entry → Option Fd × RawEvent
  | .user events data => (none, ⟨events, data⟩)
  | .fd fd => (some fd, ⟨(k.pend fd).setWidth 32, ((k.assoc fd).map Assoc.user).getD 0#64⟩)

/-- Kernel `port_getn`, successful part: at most `max` events from the head of the queue; the associations of their descriptors
end. (OS; called at port.rs:116) -/
def getn (k : Kern) (max : Nat) : List (Option Fd × RawEvent) × Kern :=
  ((k.queue.take max).map (rawOf k),
   { k with queue := k.queue.drop max, assoc := fun x => if .fd x ∈ k.queue.take max then none else k.assoc x })

/-- The sources among the raw events. (plumbing of the model, no counterpart in the code) -/
def sources (evs : List (Option Fd × RawEvent)) : List (Fd × Event EventExtra) :=
  evs.filterMap fun e => e.1.map fun fd => (fd, toEvent e.2)

/-- Where the thread inside `Poller::wait` is.  `dl`: the deadline of lib.rs:736; `cap`: capacity of the buffer. -/
inductive Phase where
  | idle
  /-- top of the loop, lib.rs:738 -/
  | top (dl : Option Nat) (cap : Nat)
  /-- port.rs:116: in `port_getn`, entered at time `t0` -/
  | polling (dl : Option Nat) (cap : Nat) (timeout : Option Duration) (t0 : Nat)
  /-- lib.rs:755: `notified` not yet reset -/
  | taken (evs : List (Option Fd × RawEvent))
deriving DecidableEq, Repr

/-- The whole state. (port.rs:15-18; lib.rs:434-438) -/
structure S where
  k : Kern
  /-- lib.rs `Poller::notified` -/
  notified : Bool
  /-- threads in `notify` between lib.rs:792 and port.rs:147 -/
  inflight : Nat
  phase : Phase

/-- port.rs:22-33 `Poller::new` (successful). -/
def init (cond : Fd → Flags) : S := ⟨⟨fun _ => none, [], fun _ => 0#16, cond, 0⟩, false, 0, .idle⟩

/-- lib.rs:881-883 `Events::iter` over the raw events (port.rs:191-201). -/
def visible (evs : List (Option Fd × RawEvent)) : List (Event EventExtra) :=
  (evs.map fun e => toEvent e.2).filter fun ev => ev.key != NOTIFY_KEY

/-- Steps. (port.rs:50-150; lib.rs:548-800) -/
inductive Act where
  /-- lib.rs:548 / 653 / 688 by any thread.  `fault`: an error the OS chooses to return. -/
  | add (fd : Fd) (ev : Event EventExtra) (mode : PollMode) (fault : Option Err)
  | modify (fd : Fd) (ev : Event EventExtra) (mode : PollMode) (fault : Option Err)
  | delete (fd : Fd) (fault : Option Err)
  /-- lib.rs:792-796 compare-exchange -/
  | notifyCas
  /-- port.rs:147 `port_send`, and return -/
  | notifySend (fault : Option Err)
  /-- lib.rs:735-736 take the lock and compute the deadline -/
  | waitBegin (timeout : Option Duration) (cap : Nat)
  /-- lib.rs:735, 760: the lock is taken -/
  | waitBusy
  /-- lib.rs:740-741: compute the remaining time, and enter `port_getn` -/
  | compute
  /-- port.rs:116 `port_getn` returns with events, or with `ETIME` -/
  | getn
  /-- port.rs:116 `port_getn` fails otherwise -/
  | getnFail (e : Err)
  /-- lib.rs:755-758 reset `notified` and return -/
  | finish
  /-- a file changes to `flags` and/or wakes its waiters for `key` -/
  | setReady (fd : Fd) (flags key : Flags)
  /-- time passes -/
  | tick (dt : Nat)
deriving DecidableEq, Repr

/-- The time limit of `port_getn` is over. (OS; port.rs:116) -/
def timeUp (timeout : Option Duration) (t0 now : Nat) : Bool :=
  match timeout with
  | none => false
  | some d => decide (t0 + d.ns ≤ now)

/-- port.rs:138, 147: what `notify` sends. -/
def notification : Entry := .user 3#32 (keyToU64 NOTIFY_KEY)

/-- The effect of a step and what can be observed of it; `none` if the step is not possible.  `threads`: the number of threads
that may call `notify`. (port.rs:50-150; lib.rs:731-800) -/
def step (threads : Nat) (s : S) : Act → Option (S × Obs EventExtra)
  | .add fd ev mode fault =>
    if ev.key = NOTIFY_KEY then some (s, .failed .invalidInput)
    else match PortM.add fault s.k fd ev mode with
      | (.ok, k) => some ({ s with k }, .reg fd ev mode)
      | (.err e, k) => some ({ s with k }, .failed e)
  | .modify fd ev mode fault =>
    if ev.key = NOTIFY_KEY then some (s, .failed .invalidInput)
    else match PortM.modify fault s.k fd ev mode with
      | (.ok, k) => some ({ s with k }, .reg fd ev mode)
      | (.err e, k) => some ({ s with k }, .failed e)
  | .delete fd fault =>
    if fault = some .notFound then none  -- the OS says ENOENT only if there is no association
    else match PortM.delete fault s.k fd with
    | (.ok, k) => some ({ s with k }, .unreg fd)
    | (.err e, k) => some ({ s with k }, .failed e)
  | .notifyCas =>
    if s.notified then some (s, .notified)
    else if s.inflight < threads then some ({ s with notified := true, inflight := s.inflight + 1 }, .tau)
    else none
  | .notifySend fault =>
    if s.inflight > 0 then
      match fault with
      | some e => some ({ s with inflight := s.inflight - 1 }, .notifyErr e)
      | none => some ({ s with inflight := s.inflight - 1, k := { s.k with queue := s.k.queue ++ [notification] } }, .notified)
    else none
  | .waitBegin timeout cap =>
    match s.phase with
    | .idle =>
      if cap = 0 then none  -- lib.rs:832-855: the capacity is non-zero
      else some ({ s with phase := .top (timeout.bind fun t => instantCheckedAdd unixMaxNs s.k.time t) cap }, .waitBegin)
    | _ => none
  | .waitBusy =>
    match s.phase with
    | .idle => none
    | _ => some (s, .waitBusy)
  | .compute =>
    match s.phase with
    | .top dl cap =>
      some ({ s with phase := .polling dl cap (dl.map fun d => saturatingSince d s.k.time) s.k.time }, .tau)
    | _ => none
  | .getn =>
    match s.phase with
    | .polling _ cap timeout t0 =>
      if s.k.queue ≠ [] then
        let (evs, k) := PortM.getn s.k cap
        some ({ s with k, phase := .taken evs }, .deliver (sources evs))
      else if timeUp timeout t0 s.k.time then some ({ s with phase := .taken [] }, .deliver [])
      else none
    | _ => none
  | .getnFail e =>
    match s.phase with
    | .polling dl cap _ _ =>
      if e = .interrupted then some ({ s with phase := .top dl cap }, .tau)
      else some ({ s with phase := .idle }, .waitErr e)
    | _ => none
  | .finish =>
    match s.phase with
    | .taken evs => some ({ s with notified := false, phase := .idle }, .waitOk (visible evs).length (visible evs))
    | _ => none
  | .setReady fd flags key =>
    if flags &&& ~~~(s.k.cond fd) &&& ~~~key ≠ 0#16 then none  -- a new condition always wakes the waiters
    else some ({ s with k := wake { s.k with cond := fun x => if x = fd then flags else s.k.cond x } fd key }, .tau)
  | .tick dt => some ({ s with k := { s.k with time := s.k.time + dt } }, .tau)

/-- Reachable states with the trace that led to them, by steps that satisfy `P` only.
(plumbing of the model, no counterpart in the code) -/
inductive Reach (threads : Nat) (P : S → Act → Prop) : S → List (Obs EventExtra) → Prop
  | init (cond) : Reach threads P (init cond) []
  | step {s tr a s' o} : Reach threads P s tr → P s a → step threads s a = some (s', o) → Reach threads P s' (o :: tr)

/-- The OS does not refuse to queue a notification (port_send(3C): ENOMEM, or EAGAIN with 65536 queued events).
(OS; port.rs:147) -/
def SendWorks : S → Act → Prop
  | _, .notifySend (some _) => False
  | _, _ => True

/-- Every step. (plumbing of the model, no counterpart in the code) -/
def Any : S → Act → Prop := fun _ _ => True

/-- Run a list of steps. (plumbing of the model, no counterpart in the code) -/
def runActs (threads : Nat) (s : S) : List Act → Option (S × List (Obs EventExtra))
  | [] => some (s, [])
  | a :: as => (step threads s a).bind fun r => (runActs threads r.1 as).map fun q => (q.1, q.2 ++ [r.2])

end Polling.PortM
