import Verif.Model.Flags
import Verif.Spec.IocpTrace

/-
The IOCP backend (iocp/mod.rs, iocp/afd.rs, iocp/port.rs) together with the portable layer (lib.rs) and the part of Windows
it uses, as a transition system.

* Every thread (`Tid`) has a position `Pc`.  Every operation on the tables, on the queue of updates, on the flags `polling` and
  `notified`, every critical section of a packet's mutex and every system call outside of one is one step.  A critical section
  (`set_events`, `update`, `begin_delete`, and the first part of `feed_event`) is one step: the packet's fields are only accessed
  with its mutex held, and each section makes at most one system call that starts or cancels an operation.
* At most one thread is inside `wait` (lib.rs:735 `try_lock`): its position is `Phase`.
* The kernel part, in the trusted base: a completion port is a queue (first in, first out); an AFD poll operation that was
  accepted completes exactly once, by putting its packet into that queue, after its result was written; the result of a
  successful one only has conditions that were asked for, and `STATUS_CANCELLED` only occurs for a cancelled one; a wait
  registered with `RegisterWaitForSingleObject(WT_EXECUTEONLYONCE)` runs its callback at most once, and not if it was
  unregistered before the callback was dispatched.
* Simplified: time (a `wait` with a timeout may give up whenever `port.wait` returned, `timed`; the time itself is treated in
  `Model/WaitTiming.lean`); the sharing of AFD handles (`Model/AfdGroups.lean`); reference counts of packets (a packet that is
  no longer referenced is kept); the poller being dropped.
-/

namespace Polling.IocpM
open Iocp IocpSpec

/-- Result of an AFD poll operation: `IO_STATUS_BLOCK.Status` and `AfdPollInfo` as read by iocp/mod.rs:986-1003. -/
inductive PollRes where
  /-- `STATUS_CANCELLED` -/
  | cancelled
  /-- another negative status -/
  | error
  /-- success: `handle_count`, `handles[0].events` -/
  | ok (count : Nat) (events : Mask)
deriving DecidableEq, Repr

/-- Kernel: the AFD operation that uses the packet. (OS; started at afd.rs:477-490) -/
inductive Op where
  | none
  /-- accepted and not complete; a cancellation was requested? -/
  | inFlight (mask : Mask) (cancelling : Bool)
  /-- complete: its completion entry was queued and is not yet processed -/
  | done (r : PollRes)
deriving DecidableEq, Repr

/-- iocp/mod.rs:1129-1142 `SocketStatus`. -/
inductive Status where
  | idle
  | polling (flags : Mask)
  | cancelled
deriving DecidableEq, Repr

/-- iocp/mod.rs:1101-1125 `SocketState`, with `IoStatusBlock::in_use` (afd.rs:578) and the operation. -/
structure Sock where
  socket : Fd
  interest : Event EventExtra
  interestError : Bool
  mode : PollMode
  waitingOnDelete : Bool
  status : Status
  inUse : Bool
  op : Op
deriving DecidableEq, Repr

/-- iocp/mod.rs:1163-1172 `WaitableStatus`. -/
inductive WStatus where
  | idle | waiting | cancelled
deriving DecidableEq, Repr

/-- iocp/mod.rs:1145-1161 `WaitableState`; `registered`: the kernel's wait is registered and its callback not dispatched. -/
structure Wtb where
  handle : Fd
  interest : Event EventExtra
  mode : PollMode
  status : WStatus
  registered : Bool
deriving DecidableEq, Repr

/-- iocp/mod.rs:727-751 `PacketInner`. -/
inductive Pkt where
  /-- not yet created -/
  | free
  | socket (s : Sock)
  | waitable (w : Wtb)
  | custom (ev : Event EventExtra)
  | wakeup
deriving DecidableEq, Repr

/-- iocp/mod.rs:146 capacity of `pending_updates`. -/
def CAPACITY : Nat := 1024

/-- The poller's shared state without the portable layer. (iocp/mod.rs:71-114) -/
structure Core where
  /-- packets by name -/
  pk : PId → Pkt
  /-- names in use are below -/
  next : PId
  /-- iocp/mod.rs:91 `sources` (`true`) and 94 `waitables` (`false`) -/
  table : Bool → Fd → Option PId
  /-- iocp/mod.rs:102 `pending_updates` -/
  pending : List PId
  /-- iocp/mod.rs:108 -/
  polling : Bool
  /-- the completion port -/
  port : List PId

/-- Plumbing of the model, no counterpart in the code. -/
def setPk (c : Core) (p : PId) (x : Pkt) : Core := { c with pk := fun y => if y = p then x else c.pk y }

/-- iocp/mod.rs:1267-1269 for the current interest. -/
def Sock.mask (s : Sock) : Mask := eventToAfdMask s.interest s.interestError

/-- iocp/mod.rs:914-924: errors of `Afd::poll` which count as success (`ERROR_INVALID_HANDLE` is 6, `ERROR_IO_PENDING` 997). -/
def tolerated (e : Err) : Bool := e == .wouldBlock || e == .os 6 || e == .os 997

/-- iocp/mod.rs:905-932 the `Idle` case of `update`, with afd.rs:439-501 `Afd::poll`.  `fault`: the OS refuses the operation.
The last component is the mask if an operation was started. -/
def startPoll (fault : Option Err) (s : Sock) : Res × Sock × Option Mask :=
  let mask := s.mask
  -- afd.rs:448: `try_lock` fails: WouldBlock, which is tolerated
  if s.inUse then (.ok, { s with status := .polling mask }, none)
  else
    let s := { s with inUse := true }
    match fault with
    | none => (.ok, { s with status := .polling mask, op := .inFlight mask false }, some mask)
    | some e => if tolerated e then (.ok, { s with status := .polling mask }, none) else (.err e, s, none)

/-- The operation after its cancellation was requested: only one that is in flight is affected. (OS; called at afd.rs:522) -/
def Op.cancel : Op → Op
  | .inFlight mask _ => .inFlight mask true
  | op => op

/-- iocp/mod.rs:1084-1096 `cancel` with afd.rs:508-532 `Afd::cancel`.  The system call is made only if the status was pending when
it was read; it may fail also if the operation is complete by then.  An operation that is not there gives `STATUS_NOT_FOUND`,
which counts as success. -/
def cancel (fault : Option Err) (s : Sock) : Res × Sock :=
  match fault with
  | some e => (.err e, s)
  | none => (.ok, { s with status := .cancelled, op := s.op.cancel })

/-- iocp/mod.rs:880-933 `update` of a socket. -/
def updateSock (fault : Option Err) (s : Sock) : Res × Sock × Option Mask :=
  if s.waitingOnDelete then (.ok, s, none)
  else match s.status with
    | .polling flags =>
      if s.mask ≠ flags then let (r, s) := cancel fault s; (r, s, none) else (.ok, s, none)
    | .cancelled => (.ok, s, none)
    | .idle => startPoll fault s

/-- iocp/mod.rs:830-876 `update` of a waitable.  `fault`: `RegisterWaitForSingleObject` fails. -/
def updateWtb (fault : Option Err) (w : Wtb) : Res × Wtb :=
  if !w.interest.readable && !w.interest.writable then (.ok, w)
  else if w.status ≠ .idle then (.ok, w)
  else match fault with
    | some e => (.err e, w)
    | none => (.ok, { w with status := .waiting, registered := true })

/-- iocp/mod.rs:827-934 `update`. -/
def update (fault : Option Err) (c : Core) (p : PId) : Res × Core × Option Mask :=
  match c.pk p with
  | .socket s => let (r, s, m) := updateSock fault s; (r, setPk c p (.socket s), m)
  | .waitable w => let (r, w) := updateWtb fault w; (r, setPk c p (.waitable w), none)
  | _ => (.err (.os 0), c, none)  -- line 877: ErrorKind::Other

/-- iocp/mod.rs:788-817 `set_events` of a socket. -/
def setEventsSock (s : Sock) (ev : Event EventExtra) (mode : PollMode) : Bool × Sock :=
  let s := { s with interest := ev, mode, interestError := true }
  (match s.status with
    | .polling flags => decide (s.mask ≠ flags)
    | _ => true, s)

/-- iocp/mod.rs:788-817 `set_events`. -/
def setEvents (c : Core) (p : PId) (ev : Event EventExtra) (mode : PollMode) : Bool × Core :=
  match c.pk p with
  | .socket s => let (b, s) := setEventsSock s ev mode; (b, setPk c p (.socket s))
  | .waitable w => (decide (w.status = .idle), setPk c p (.waitable { w with interest := ev, mode }))
  | _ => (true, c)

/-- iocp/mod.rs:1056-1082 `begin_delete`. -/
def beginDelete (fault : Option Err) (c : Core) (p : PId) : Res × Core :=
  match c.pk p with
  | .socket s =>
    if s.waitingOnDelete then (.ok, c)
    else
      let s := { s with waitingOnDelete := true }
      match s.status with
      | .polling _ => let (r, s) := cancel fault s; (r, setPk c p (.socket s))
      | _ => (.ok, setPk c p (.socket s))
  -- the wait handle, if any, is dropped: the wait is unregistered
  | .waitable w => (.ok, setPk c p (.waitable { w with status := .cancelled, registered := false }))
  | _ => (.ok, c)  -- a panic in the code; never called on other packets

/-- iocp/mod.rs:1181-1192 `FeedEventResult`, before the packet is put up for an update. -/
inductive Fed where
  /-- return this result at once -/
  | noEvent
  | notified
  | custom (ev : Event EventExtra)
  /-- iocp/mod.rs:1006-1010: the source is to be removed while its mutex is held -/
  | localClose
  /-- go on to `update_packet`, then return the event, if any; the source it belongs to -/
  | update (sock : Bool) (fd : Fd) (ev : Option (Event EventExtra))
deriving DecidableEq, Repr

/-- iocp/mod.rs:985-1020: the event of a completed poll, before filtering. -/
def rawEvent (key : Key) : PollRes → Event EventExtra
  | .cancelled => Event.none key
  | .error => { Event.none key with readable := true, writable := true }
  | .ok count events =>
    if count ≥ 1 then
      { key, readable := (afdMaskToEvent events).1, writable := (afdMaskToEvent events).2, extra := ⟨events⟩ }
    else Event.none key

/-- iocp/mod.rs:1023-1045: filter out what was not asked for; the one-shot mode. -/
def filterEvent (s : Sock) (ev : Event EventExtra) : Sock × Option (Event EventExtra) :=
  let ev := { ev with readable := ev.readable && s.interest.readable, writable := ev.writable && s.interest.writable }
  if ev.readable || ev.writable || intersects ev.extra.flags s.interest.extra.flags then
    (if s.mode = .oneshot then { s with interest := Event.none s.interest.key, interestError := false } else s, some ev)
  else (s, none)

/-- The result has the condition that the socket was closed. (iocp/mod.rs:1006) -/
def isLocalClose : PollRes → Bool
  | .ok count events => decide (count ≥ 1) && intersects events LOCAL_CLOSE
  | _ => false

/-- iocp/mod.rs:940-1047 `feed_event`, up to `update_packet`, with `OverlappedEntry::into_packet` (iocp/port.rs:276-292: the packet
is no longer in use). -/
def feed (c : Core) (p : PId) : Fed × Core :=
  match c.pk p with
  | .custom ev => (.custom ev, c)
  | .wakeup => (.notified, c)
  | .waitable w =>
    (.update false w.handle (some w.interest),
     setPk c p (.waitable (if w.mode = .oneshot then { w with interest := Event.none w.interest.key } else w)))
  | .socket s =>
    match s.op with
    | .done r =>
      let s := { s with status := .idle, inUse := false, op := .none }
      if s.waitingOnDelete then (.noEvent, setPk c p (.socket s))
      else if isLocalClose r then (.localClose, setPk c p (.socket s))
      else
        let (s, ev) := filterEvent s (rawEvent s.interest.key r)
        (.update true s.socket ev, setPk c p (.socket s))
    | _ => (.noEvent, c)  -- no operation is complete: never in the port (`IocpM.reach_ops`)
  | .free => (.noEvent, c)

/-- Position inside `update_packet` (iocp/mod.rs:506-525) for packet `p`. -/
inductive UPc where
  /-- line 509: load `polling` -/
  | load (p : PId)
  /-- line 510: `update` -/
  | run (p : PId)
  /-- line 515: push to the queue -/
  | push (p : PId)
  /-- line 521, 539-541: take the next packet from the queue; at most `n` more -/
  | pop (p : PId) (n : Nat)
  /-- line 541: update the packet `q` taken from the queue -/
  | drain (p : PId) (n : Nat) (q : PId)
deriving DecidableEq, Repr

/-- What a step of `update_packet` leads to. (iocp/mod.rs:506-542) -/
inductive UOut where
  | more (u : UPc)
  | done (r : Res)
deriving DecidableEq, Repr

/-- What is observed of an update. (plumbing of the model, no counterpart in the code) -/
def updateObs (p : PId) (m : Option Mask) : IObs :=
  match m with
  | some m => .polled p m
  | none => .tau

/-- One step of `update_packet` (iocp/mod.rs:506-525) and `drain_update_queue(true)` (528-542).  The load of `polling` is `Acquire`, the
stores are `SeqCst`: it may return an older value; `fault` at this step means that it returns the value that is not current. -/
def ustep (fault : Option Err) (c : Core) : UPc → Core × UOut × IObs
  | .load p => (c, .more (if c.polling != fault.isSome then .run p else .push p), .tau)
  | .run p => let (r, c, m) := update fault c p; (c, .done r, updateObs p m)
  | .push p =>
    if c.pending.length < CAPACITY then ({ c with pending := c.pending ++ [p] }, .done .ok, .queued p)
    else (c, .more (.pop p CAPACITY), .tau)
  | .pop p n =>
    match n, c.pending with
    | n + 1, q :: rest => ({ c with pending := rest }, .more (.drain p n q), .popped q)
    | _, _ => (c, .more (.load p), .tau)
  | .drain p n q =>
    let (r, c, m) := update fault c q
    (c, match r with | .ok => .more (.pop p n) | .err e => .done (.err e), updateObs q m)

/-- In the thread inside `wait` (iocp/mod.rs:467) the load of iocp/mod.rs:509 is never stale: it is this thread that stored the latest
value (iocp/mod.rs:439, 444; the lock of lib.rs:735 is held). -/
def coherent (fault : Option Err) : UPc → Option Err
  | .load _ => none
  | _ => fault

/-- Where a thread inside a call is. (iocp/mod.rs:172-419, 495-525) -/
inductive Pc where
  | out
  /-- iocp/mod.rs:199, 202: `base_socket` and `afd_handle` are next (sockets only) -/
  | prepare (call : Call)
  /-- iocp/mod.rs:219, 262, 289 (344, 386, 407): access to the table is next -/
  | table (call : Call)
  /-- iocp/mod.rs:268 (392) `set_events` is next -/
  | set (call : Call) (p : PId)
  /-- iocp/mod.rs:300 (418) `begin_delete` is next -/
  | del (call : Call) (p : PId)
  /-- iocp/mod.rs:231, 270 (356, 393) in `update_packet` -/
  | upd (call : Call) (u : UPc)
  /-- about to return -/
  | ret (call : Call) (r : Res)
  /-- iocp/mod.rs:497 `post` of `notify` is next -/
  | notify
deriving DecidableEq, Repr

/-- The local variables of `wait`. (iocp/mod.rs:422-436) -/
structure W where
  /-- there is a timeout -/
  timed : Bool
  /-- capacity of `completions` -/
  cap : Nat
  /-- iocp/mod.rs:432 -/
  notified : Bool
  /-- iocp/mod.rs:436 -/
  newEvents : Nat
  /-- `events.packets` -/
  evs : List (Event EventExtra)
deriving DecidableEq, Repr

/-- Where the thread inside `Poller::wait` is. (lib.rs:731-764; iocp/mod.rs:422-492) -/
inductive Phase where
  | idle
  /-- lib.rs:738: top of the loop of lib.rs -/
  | top (timed : Bool) (cap : Nat)
  /-- iocp/mod.rs:435-440: top of the loop; `polling.swap(true)` is next -/
  | start (w : W)
  /-- iocp/mod.rs:449, 539: take the next packet from the queue -/
  | pop (w : W)
  /-- iocp/mod.rs:541: update it -/
  | upd (w : W) (q : PId)
  /-- iocp/mod.rs:455: in `port.wait` -/
  | port (w : W)
  /-- iocp/mod.rs:462: `polling.swap(false)` is next, with these completions -/
  | unpoll (w : W) (batch : List PId)
  /-- iocp/mod.rs:465: the next completion -/
  | feed (w : W) (batch : List PId)
  /-- iocp/mod.rs:1049 (964): in `update_packet`; the event to return afterwards -/
  | feedUpd (w : W) (batch : List PId) (u : UPc) (ev : Option (Event EventExtra))
  /-- iocp/mod.rs:443: an error while `polling` is set; it is reset by the guard -/
  | fail (w : W) (e : Err)
  /-- iocp/mod.rs:465, 469: an error of `feed_event`; the completions that were not processed are dropped, one after the other -/
  | drain (w : W) (e : Err) (batch : List PId)
  /-- lib.rs:755 -/
  | fin (evs : List (Event EventExtra))
  /-- a panic, or a thread waiting for a mutex that it holds itself (iocp/mod.rs:1006-1010) -/
  | stuck
deriving DecidableEq, Repr

/-- The whole state. (lib.rs:434-438; iocp/mod.rs:71-114) -/
structure S where
  c : Core
  /-- lib.rs `Poller::notified` -/
  notified : Bool
  pc : Tid → Pc
  phase : Phase
  /-- callbacks of waits that were dispatched and did not run yet (iocp/mod.rs:847) -/
  cb : List PId
  /-- callbacks that are about to post their packet (iocp/mod.rs:864) -/
  cbPost : List PId

/-- iocp/mod.rs:148 `notifier`. -/
def NOTIFIER : PId := 0

/-- iocp/mod.rs:121-155 `Poller::new` (successful). -/
def init : S :=
  { c := { pk := fun p => if p = NOTIFIER then .wakeup else .free, next := 1, table := fun _ _ => none, pending := [], polling := false, port := [] }
    notified := false, pc := fun _ => .out, phase := .idle, cb := [], cbPost := [] }

/-- Steps. (lib.rs:548-800; iocp/mod.rs:172-545, 847-867) -/
inductive Act where
  /-- a registration call begins -/
  | call (t : Tid) (call : Call)
  /-- the next step of a registration call; `fault`: an error the OS chooses to return, if the step has a system call -/
  | go (t : Tid) (fault : Option Err)
  /-- os/iocp.rs `CompletionPacket::new` -/
  | newPacket (ev : Event EventExtra)
  /-- iocp/mod.rs:502 `post` -/
  | post (p : PId) (fault : Option Err)
  /-- lib.rs:792-796 compare-exchange -/
  | notifyCas (t : Tid)
  /-- iocp/mod.rs:497 -/
  | notifyPost (t : Tid) (fault : Option Err)
  /-- lib.rs:735 take the lock -/
  | waitBegin (timed : Bool) (cap : Nat)
  /-- lib.rs:735, 760: the lock is taken -/
  | waitBusy
  /-- the next step of `wait`, except the following -/
  | wait (fault : Option Err)
  /-- iocp/mod.rs:455 `port.wait` returns, with completions or because the time is over -/
  | get
  /-- iocp/mod.rs:455 `port.wait` fails -/
  | getFail (e : Err)
  /-- iocp/mod.rs:481-486: all completions are processed; `expired`: the remaining time was zero -/
  | decide (expired : Bool)
  /-- the OS completes the AFD operation of a packet -/
  | complete (p : PId) (r : PollRes)
  /-- the OS dispatches the callback of a wait -/
  | fire (p : PId)
  /-- iocp/mod.rs:848-863: the callback runs, up to `post` -/
  | callback (p : PId)
  /-- iocp/mod.rs:864: the callback posts -/
  | callbackPost (p : PId) (fault : Option Err)
deriving DecidableEq, Repr

/-- Plumbing of the model, no counterpart in the code. -/
def upd (pc : Tid → Pc) (t : Tid) (p : Pc) : Tid → Pc := fun u => if u = t then p else pc u

/-- lib.rs:881-883 `Events::iter` (iocp/mod.rs:630-632). -/
def visible (evs : List (Event EventExtra)) : List (Event EventExtra) := evs.filter fun ev => ev.key != NOTIFY_KEY

/-- The `mode` argument: iocp/mod.rs:172-177, 235-240. -/
def callMode : Call → PollMode
  | .add _ _ _ mode | .modify _ _ _ mode => mode
  | .delete _ _ => .oneshot
/-- `add`, `modify`, `delete` or `add_waitable`, `modify_waitable`, `remove_waitable`: iocp/mod.rs:172-301 or 304-419. -/
def callSock : Call → Bool
  | .add k _ _ _ | .modify k _ _ _ | .delete k _ => k
/-- The source: iocp/mod.rs:172-301, 304-419. -/
def callFd : Call → Fd
  | .add _ fd _ _ | .modify _ fd _ _ | .delete _ fd => fd

/-- lib.rs:554, 659: the reserved key is rejected (not by the extension, os/iocp.rs:200-219). -/
def reserved : Call → Bool
  | .add true _ ev _ | .modify true _ ev _ => ev.key == NOTIFY_KEY
  | _ => false

/-- iocp/mod.rs:187, 250, 318, 374. -/
def edge : PollMode → Bool
  | .edge | .edgeOneshot => true
  | _ => false

/-- The events a user can build: lib.rs:186-430 only touch the `ABORT` and `RECEIVE_EXPEDITED` bits of the extra flags, and the
flags of received events have no `LOCAL_CLOSE` (`C30.iocp_received_is_buildable`). -/
def buildable (ev : Event EventExtra) : Bool := ev.extra.flags &&& LOCAL_CLOSE == 0#32

/-- The `Event` argument: iocp/mod.rs:172-274, 304-419. -/
def callBuildable : Call → Bool
  | .add _ _ ev _ | .modify _ _ ev _ => buildable ev
  | .delete _ _ => true

/-- iocp/mod.rs:195-213, 326-338: the packet made by `add` and `add_waitable`. -/
def newPkt (sock : Bool) (fd : Fd) (ev : Event EventExtra) (mode : PollMode) : Pkt :=
  if sock then .socket ⟨fd, ev, true, mode, false, .idle, false, .none⟩
  else .waitable ⟨fd, ev, mode, .idle, false⟩

/-- The next step of a registration call. (iocp/mod.rs:172-419, 506-542; the lines of each step are given below) -/
def goCall (s : S) (t : Tid) (fault : Option Err) : Option (S × IObs) :=
  match s.pc t with
  | .prepare call =>
    match fault with
    | some e => some ({ s with pc := upd s.pc t .out }, .ret t call (.err e))
    | none => some ({ s with pc := upd s.pc t (.table call) }, .tau)
  | .table call =>
    match call with
    | .add k fd ev mode =>
      match s.c.table k fd with
      | some _ => some ({ s with pc := upd s.pc t .out }, .ret t call (.err .alreadyExists))
      | none =>
        let p := s.c.next
        let c := setPk s.c p (newPkt k fd ev mode)
        some ({ s with
            c := { c with next := p + 1, table := fun k' x => if k' = k ∧ x = fd then some p else s.c.table k' x }
            pc := upd s.pc t (.upd call (.load p)) }, .inserted t k fd p ev mode)
    | .modify k fd _ _ =>
      match s.c.table k fd with
      | none => some ({ s with pc := upd s.pc t .out }, .ret t call (.err .notFound))
      | some p => some ({ s with pc := upd s.pc t (.set call p) }, .tau)
    | .delete k fd =>
      match s.c.table k fd with
      | none => some ({ s with pc := upd s.pc t .out }, .ret t call .ok)
      | some p => some ({ s with
          c := { s.c with table := fun k' x => if k' = k ∧ x = fd then none else s.c.table k' x }
          pc := upd s.pc t (.del call p) }, .removed t k fd p)
  | .set call p =>
    match call with
    | .modify k fd ev mode =>
      let (more, c) := setEvents s.c p ev mode
      some ({ s with c, pc := upd s.pc t (if more then .upd call (.load p) else .ret call .ok) }, .changed t k fd p ev mode)
    | _ => none
  | .del call p =>
    let (r, c) := beginDelete fault s.c p
    some ({ s with c, pc := upd s.pc t .out }, .deleted t (callSock call) (callFd call) p r)
  | .upd call u =>
    match ustep fault s.c u with
    | (c, .more u, o) => some ({ s with c, pc := upd s.pc t (.upd call u) }, o)
    | (c, .done r, o) => some ({ s with c, pc := upd s.pc t (.ret call r) }, o)
  | .ret call r => some ({ s with pc := upd s.pc t .out }, .ret t call r)
  | _ => none

/-- lib.rs:744-752: the backend's `wait` failed. -/
def waitFail (s : S) (w : W) (e : Err) : S × IObs :=
  if e = .interrupted then ({ s with phase := .top w.timed w.cap }, .waitAgain)
  else ({ s with phase := .idle }, .waitErr e)

/-- iocp/mod.rs:471-474. -/
def addEvent (w : W) : Option (Event EventExtra) → W
  | some ev => { w with newEvents := w.newEvents + 1, evs := w.evs ++ [ev] }
  | none => w

/-- iocp/port.rs:295-299: a completion entry is dropped; the packet is no longer in use. -/
def dropEntry (c : Core) (p : PId) : Core :=
  match c.pk p with
  | .socket s => setPk c p (.socket { s with inUse := false, op := .none })
  | _ => c

/-- The next step of `wait`. (lib.rs:731-764; iocp/mod.rs:422-492) -/
def goWait (s : S) (fault : Option Err) : Option (S × IObs) :=
  match s.phase with
  | .top timed cap => some ({ s with phase := .start ⟨timed, cap, false, 0, []⟩ }, .tau)
  | .start w => some ({ s with c := { s.c with polling := true }, phase := .pop { w with newEvents := 0 } }, .tau)
  | .pop w =>
    match s.c.pending with
    | q :: rest => some ({ s with c := { s.c with pending := rest }, phase := .upd w q }, .popped q)
    | [] => some ({ s with phase := .port w }, .tau)
  | .upd w q =>
    match update fault s.c q with
    | (.ok, c, m) => some ({ s with c, phase := .pop w }, updateObs q m)
    | (.err e, c, m) => some ({ s with c, phase := .fail w e }, updateObs q m)
  | .unpoll w batch => some ({ s with c := { s.c with polling := false }, phase := .feed w batch }, .tau)
  | .fail w e => some (waitFail { s with c := { s.c with polling := false } } w e)
  | .drain w e [] => some (waitFail s w e)
  | .drain w e (p :: batch) => some ({ s with c := dropEntry s.c p, phase := .drain w e batch }, .tau)
  | .feed w (p :: batch) =>
    match feed s.c p with
    | (.noEvent, c) => some ({ s with c, phase := .feed w batch }, .tau)
    | (.notified, c) => some ({ s with c, phase := .feed { w with notified := true } batch }, .tau)
    | (.custom ev, c) => some ({ s with c, phase := .feed (addEvent w (some ev)) batch }, .received p ev)
    | (.localClose, c) => some ({ s with c, phase := .stuck }, .tau)
    | (.update k fd ev, c) => some ({ s with c, phase := .feedUpd w batch (.load p) ev },
        match ev with | some ev => .deliver k fd p ev | none => .tau)
  | .feedUpd w batch u ev =>
    match ustep (coherent fault u) s.c u with
    | (c, .more u, o) => some ({ s with c, phase := .feedUpd w batch u ev }, o)
    | (c, .done .ok, o) =>
      some ({ s with c, phase := .feed (addEvent w ev) batch }, o)
    | (c, .done (.err e), o) => some ({ s with c, phase := .drain w e batch }, o)
  | .fin evs => some ({ s with notified := false, phase := .idle }, .waitOk (visible evs).length (visible evs))
  | _ => none

/-- The results a poll operation can have. (OS; read at iocp/mod.rs:966-1019) -/
def possible (mask : Mask) (cancelling : Bool) : PollRes → Bool
  | .cancelled => cancelling
  | .error => true
  | .ok _ events => events &&& ~~~mask == 0#32

/-- The effect of a step and what can be observed of it; `none` if the step is not possible.  `threads`: the number of threads
that make calls other than `wait`. (lib.rs:731-800; iocp/mod.rs:172-545, 847-867) -/
def step (threads : Nat) (s : S) : Act → Option (S × IObs)
  | .call t call =>
    if t ≥ threads then none
    else match s.pc t with
      | .out =>
        if !callBuildable call then none
        else if reserved call then some (s, .ret t call (.err .invalidInput))
        else if edge (callMode call) then some (s, .ret t call (.err .invalidInput))
        else some ({ s with pc := upd s.pc t (match call with | .add true _ _ _ => .prepare call | _ => .table call) }, .begin t call)
      | _ => none
  | .go t fault => if t ≥ threads then none else goCall s t fault
  | .newPacket ev =>
    if !buildable ev then none
    else some ({ s with c := { setPk s.c s.c.next (.custom ev) with next := s.c.next + 1 } }, .tau)
  | .post p fault =>
    match s.c.pk p with
    | .custom ev =>
      match fault with
      | some _ => some (s, .postErr p)
      | none => some ({ s with c := { s.c with port := s.c.port ++ [p] } }, .posted p ev)
    | _ => none
  | .notifyCas t =>
    if t ≥ threads then none
    else match s.pc t with
      | .out =>
        if s.notified then some (s, .notifySeen t)
        else some ({ s with notified := true, pc := upd s.pc t .notify }, .notifyBegin t)
      | _ => none
  | .notifyPost t fault =>
    match s.pc t with
    | .notify =>
      match fault with
      | some e => some ({ s with pc := upd s.pc t .out }, .notifyErr t e)
      | none => some ({ s with c := { s.c with port := s.c.port ++ [NOTIFIER] }, pc := upd s.pc t .out }, .notified t)
    | _ => none
  | .waitBegin timed cap =>
    match s.phase with
    | .idle => if cap = 0 then none else some ({ s with phase := .top timed cap }, .waitBegin)
    | _ => none
  | .waitBusy =>
    match s.phase with
    | .idle => none
    | _ => some (s, .waitBusy)
  | .wait fault => goWait s fault
  | .get =>
    match s.phase with
    | .port w =>
      if s.c.port ≠ [] ∨ w.timed = true then
        some ({ s with c := { s.c with port := s.c.port.drop w.cap }, phase := .unpoll w (s.c.port.take w.cap) }, .tau)
      else none
    | _ => none
  | .getFail e =>
    match s.phase with
    | .port w => some ({ s with phase := .fail w e }, .tau)
    | _ => none
  | .decide expired =>
    match s.phase with
    | .feed w [] =>
      if w.notified = true ∨ w.newEvents > 0 ∨ (w.timed = true ∧ expired = true) then some ({ s with phase := .fin w.evs }, .tau)
      else some ({ s with phase := .start w }, .tau)
    | _ => none
  | .complete p r =>
    match s.c.pk p with
    | .socket k =>
      match k.op with
      | .inFlight mask cancelling =>
        if possible mask cancelling r then
          some ({ s with c := { setPk s.c p (.socket { k with op := .done r }) with port := s.c.port ++ [p] } }, .tau)
        else none
      | _ => none
    | _ => none
  | .fire p =>
    match s.c.pk p with
    | .waitable w =>
      if w.registered then some ({ s with c := setPk s.c p (.waitable { w with registered := false }), cb := p :: s.cb }, .tau)
      else none
    | _ => none
  | .callback p =>
    match s.c.pk p with
    | .waitable w =>
      if p ∈ s.cb then
        -- a wait handle in `status` is dropped: that wait is unregistered
        let c := setPk s.c p (.waitable { w with status := .idle, registered := false })
        some ({ s with c, cb := s.cb.erase p, cbPost := p :: s.cbPost }, .tau)
      else none
    | _ => none
  | .callbackPost p fault =>
    if p ∈ s.cbPost then
      some ({ s with c := if fault = none then { s.c with port := s.c.port ++ [p] } else s.c, cbPost := s.cbPost.erase p }, .tau)
    else none

/-- Reachable states with the trace that led to them, by steps that satisfy `P` only.
(plumbing of the model, no counterpart in the code) -/
inductive Reach (threads : Nat) (P : S → Act → Prop) : S → List IObs → Prop
  | init : Reach threads P init []
  | step {s tr a s' o} : Reach threads P s tr → P s a → step threads s a = some (s', o) → Reach threads P s' (o :: tr)

/-- Every step. (plumbing of the model, no counterpart in the code) -/
def Any : S → Act → Prop := fun _ _ => True

/-- Run a list of steps. (plumbing of the model, no counterpart in the code) -/
def runActs (threads : Nat) (s : S) : List Act → Option (S × List IObs)
  | [] => some (s, [])
  | a :: as => (step threads s a).bind fun r => (runActs threads r.1 as).map fun q => (q.1, q.2 ++ [r.2])

end Polling.IocpM
