import Verif.Model.IocpM

/-
The IOCP backend at the grain of single accesses.

`IocpM` makes every critical section of a packet's mutex one step.  Here a section is what it is in the code: the mutex is
taken, fields are read and written one after the other, system calls are made, the mutex is released; between any two of these
every other thread, every callback and the kernel may act.  What the code does without the mutex stays outside of it: the swap of
`in_use` by `Afd::poll` (afd.rs:448, inside a section but not protected by the mutex), the store to `in_use` by the thread in
`wait` before it takes the mutex (iocp/port.rs:290), the accesses of the kernel to the `IO_STATUS_BLOCK` and to `AfdPollInfo`.
The kernel writes the result of an operation first and queues its completion later.

All steps outside of critical sections are those of `IocpM`.

A section takes effect at one of its steps.  The step functions name it (`Mark`), together with what is observed there; the mark
and the fields marked as ghost do not influence any step.
-/

namespace Polling.IocpF
open Iocp IocpSpec IocpM

/-- Who can hold the mutex of a packet: a thread in a registration call, the thread in `wait`, the callback of the wait of the
packet `p`. (iocp/mod.rs:788-1096) -/
inductive Who where
  | thread (t : Tid)
  | waiter
  | callback (p : PId)
deriving DecidableEq, Repr

/-- `IO_STATUS_BLOCK.Status` as far as it is distinguished (afd.rs:473, 515; iocp/mod.rs:986-997). -/
inductive IoStatus where
  | pending | cancelled | error | success
deriving DecidableEq, Repr

/-- The memory shared with the kernel: the status of the `IO_STATUS_BLOCK` (afd.rs:575), and of `AfdPollInfo` the number of handles and
the events of the first (afd.rs:460-465; the other fields are constant). -/
structure Buf where
  status : IoStatus
  count : Nat
  events : Mask
deriving DecidableEq, Repr

/-- afd.rs:606 `zeroed`; iocp/mod.rs:210 `AfdPollInfo::default`. -/
def Buf.zero : Buf := ⟨.success, 0, 0#32⟩

/-- Kernel: the result of an operation is written. (OS; the operation started at afd.rs:477-490) -/
def Buf.write (b : Buf) : PollRes → Buf
  | .cancelled => { b with status := .cancelled }
  | .error => { b with status := .error }
  | .ok count events => ⟨.success, count, events⟩

/-- The critical sections. (iocp/mod.rs:788-1096) -/
inductive Kind where
  /-- iocp/mod.rs:788-817 `set_events` -/
  | set (ev : Event EventExtra) (mode : PollMode)
  /-- iocp/mod.rs:827-934 `update` -/
  | upd
  /-- iocp/mod.rs:1056-1082 `begin_delete` -/
  | del
  /-- iocp/mod.rs:954-963, 970-1048 in `feed_event` -/
  | feed
  /-- iocp/mod.rs:849-863 in the callback of a wait -/
  | cb
deriving DecidableEq, Repr

/-- What a section ends with. (iocp/mod.rs:788-1082) -/
inductive Out where
  /-- `set_events`: an update is needed -/
  | set (more : Bool)
  | upd (r : Res)
  | del (r : Res)
  /-- `feed_event`: go on to `update_packet`, then return the event, if any -/
  | fed (ev : Option (Event EventExtra))
  /-- `feed_event` returns `NoEvent` at once -/
  | noEvent
  /-- `feed_event` goes on to remove the source, with the mutex held -/
  | localClose
  /-- the callback goes on to post -/
  | posting
deriving DecidableEq, Repr

/-- Where in a section its owner is: the access that is next. (iocp/mod.rs:788-1096; afd.rs:439-532) -/
inductive Pos where
  -- `set_events` of a socket
  /-- iocp/mod.rs:792 -/
  | setInterest (ev : Event EventExtra) (mode : PollMode)
  /-- iocp/mod.rs:793 -/
  | setMode (mode : PollMode)
  /-- iocp/mod.rs:794 -/
  | setError
  /-- iocp/mod.rs:797 -/
  | setStatus
  /-- iocp/mod.rs:799 -/
  | setFlags (flags : Mask)
  -- `set_events` of a waitable
  /-- iocp/mod.rs:809 -/
  | wsetInterest (ev : Event EventExtra) (mode : PollMode)
  /-- iocp/mod.rs:810 -/
  | wsetMode (mode : PollMode)
  /-- iocp/mod.rs:813 -/
  | wsetStatus
  -- `update` of a socket
  /-- iocp/mod.rs:881 -/
  | wod
  /-- iocp/mod.rs:886 -/
  | status
  /-- iocp/mod.rs:890-891 -/
  | flags (flags : Mask)
  /-- iocp/mod.rs:907 -/
  | mask
  /-- afd.rs:448, 641 swap of `in_use` -/
  | tryLock (mask : Mask)
  /-- afd.rs:460-465 -/
  | info (mask : Mask)
  /-- afd.rs:473 -/
  | iosb (mask : Mask)
  /-- afd.rs:478 `NtDeviceIoControlFile` -/
  | ioctl (mask : Mask)
  /-- iocp/mod.rs:929 -/
  | polling (mask : Mask)
  -- `cancel`, from `begin_delete` or from `update`
  /-- afd.rs:515 -/
  | pending (del : Bool)
  /-- afd.rs:522 `NtCancelIoFileEx` -/
  | cancelIo (del : Bool)
  /-- iocp/mod.rs:1093 -/
  | cancelled (del : Bool)
  -- `begin_delete` of a socket
  /-- iocp/mod.rs:1071 -/
  | delRead
  /-- iocp/mod.rs:1072 -/
  | delWrite
  /-- iocp/mod.rs:1074 -/
  | delStatus
  -- `feed_event` of a socket; `old` is a ghost: the status before the section
  /-- iocp/mod.rs:971 -/
  | key
  /-- iocp/mod.rs:974 -/
  | idle (key : Key)
  /-- iocp/mod.rs:977 -/
  | feedWod (key : Key) (old : Status)
  /-- iocp/mod.rs:986 -/
  | feedIosb (key : Key) (old : Status)
  /-- iocp/mod.rs:1002-1006 -/
  | feedInfo (key : Key) (old : Status)
  /-- iocp/mod.rs:1024-1034 -/
  | feedInterest (ev : Event EventExtra) (old : Status)
  /-- iocp/mod.rs:1037 -/
  | feedMode (ev : Event EventExtra)
  /-- iocp/mod.rs:1038 -/
  | feedClear (ev : Event EventExtra)
  /-- iocp/mod.rs:1039 -/
  | feedError (ev : Event EventExtra)
  /-- iocp/mod.rs:1007-1010: removes the source and takes its mutex, which it holds: no way on -/
  | closing
  -- `update` of a waitable
  /-- iocp/mod.rs:834 -/
  | winterest
  /-- iocp/mod.rs:839 -/
  | wstatus
  /-- iocp/mod.rs:845 `RegisterWaitForSingleObject` -/
  | register
  /-- iocp/mod.rs:873 -/
  | waiting
  -- `feed_event` of a waitable
  /-- iocp/mod.rs:955 -/
  | wfeed
  /-- iocp/mod.rs:958 -/
  | wfeedMode (ev : Event EventExtra)
  /-- iocp/mod.rs:959 -/
  | wfeedClear (ev : Event EventExtra)
  -- `begin_delete` of a waitable
  /-- iocp/mod.rs:1065 the old status is dropped -/
  | wunregister
  /-- iocp/mod.rs:1065 -/
  | wcancelled
  -- the callback
  /-- iocp/mod.rs:860 the old status is dropped -/
  | cunregister
  /-- iocp/mod.rs:860 -/
  | cidle
  /-- the mutex is released next -/
  | fin (out : Out)
deriving DecidableEq, Repr

/-- The step at which a section takes effect, with what is observed.
(iocp/mod.rs:788-1096: where a step of `IocpM` corresponds) -/
inductive Mark where
  | tau
  | polled (mask : Mask)
  | deliver (sock : Bool) (fd : Fd) (ev : Event EventExtra)
  | ended (r : Res)
deriving DecidableEq, Repr

/-- The result of `cancel` is that of `update` or of `begin_delete`. (iocp/mod.rs:892, 1056-1082) -/
def cancelOut (del : Bool) (r : Res) : Out := if del then .del r else .upd r
/-- iocp/mod.rs:892, 1056-1082. -/
def cancelMark (del : Bool) (r : Res) : Mark := if del then .ended r else .tau

/-- The section begins; `none` if the packet has no mutex (iocp/mod.rs:727-751). -/
def entry : Kind → Pkt → Option Pos
  | .set ev mode, .socket _ => some (.setInterest ev mode)
  | .set ev mode, .waitable _ => some (.wsetInterest ev mode)
  | .upd, .socket _ => some .wod
  | .upd, .waitable _ => some .winterest
  | .del, .socket _ => some .delRead
  | .del, .waitable _ => some .wunregister
  | .feed, .socket _ => some .key
  | .feed, .waitable _ => some .wfeed
  | .cb, .waitable _ => some .cunregister
  | _, _ => none

/-- iocp/mod.rs:1024-1025. -/
def narrowed (s : Sock) (ev : Event EventExtra) : Event EventExtra :=
  { ev with readable := ev.readable && s.interest.readable, writable := ev.writable && s.interest.writable }

/-- iocp/mod.rs:1029-1034. -/
def wanted (s : Sock) (ev : Event EventExtra) : Bool :=
  ev.readable || ev.writable || intersects ev.extra.flags s.interest.extra.flags

/-- iocp/mod.rs:986-1019: what `feed_event` does after it read the status. -/
def afterIosb (key : Key) (old : Status) : IoStatus → Pos
  | .cancelled => .feedInterest (Event.none key) old
  | .error => .feedInterest { Event.none key with readable := true, writable := true } old
  | _ => .feedInfo key old

/-- iocp/mod.rs:1014-1017. -/
def reported (key : Key) (events : Mask) : Event EventExtra :=
  { key, readable := (afdMaskToEvent events).1, writable := (afdMaskToEvent events).2, extra := ⟨events⟩ }

/-- One access to a socket's packet by the owner of its mutex, in the order of the code.  `fault`: the error of a system call.
(iocp/mod.rs:788-804, 877-934, 970-1053, 1056-1082, 1084-1096; afd.rs:439-532) -/
def stepSock (fault : Option Err) (s : Sock) (b : Buf) : Pos → Option (Pos × Sock × Buf × Option Mark)
  -- iocp/mod.rs:792-803
  | .setInterest ev mode => some (.setMode mode, { s with interest := ev }, b, none)
  | .setMode mode => some (.setError, { s with mode }, b, none)
  | .setError => some (.setStatus, { s with interestError := true }, b, none)
  | .setStatus => some (match s.status with | .polling flags => .setFlags flags | _ => .fin (.set true), s, b, none)
  | .setFlags flags => some (.fin (.set (decide (s.mask ≠ flags))), s, b, none)
  -- iocp/mod.rs:881-932
  | .wod => if s.waitingOnDelete then some (.fin (.upd .ok), s, b, some .tau) else some (.status, s, b, none)
  | .status =>
    match s.status with
    | .polling flags => some (.flags flags, s, b, none)
    | .cancelled => some (.fin (.upd .ok), s, b, some .tau)
    | .idle => some (.mask, s, b, none)
  | .flags flags =>
    if s.mask ≠ flags then some (.pending false, s, b, none) else some (.fin (.upd .ok), s, b, some .tau)
  | .mask => some (.tryLock s.mask, s, b, none)
  -- afd.rs:448-453; the error is tolerated (iocp/mod.rs:913-916)
  | .tryLock mask =>
    if s.inUse then some (.polling mask, s, b, some .tau) else some (.info mask, { s with inUse := true }, b, none)
  | .info mask => some (.iosb mask, s, { b with count := 1, events := mask }, none)
  | .iosb mask => some (.ioctl mask, s, { b with status := .pending }, none)
  -- afd.rs:478-500, iocp/mod.rs:908-925
  | .ioctl mask =>
    match fault with
    | none => some (.polling mask, { s with op := .inFlight mask false }, b, some (.polled mask))
    | some e => some (if tolerated e then .polling mask else .fin (.upd (.err e)), s, b, some .tau)
  | .polling mask => some (.fin (.upd .ok), { s with status := .polling mask }, b, none)
  -- afd.rs:515-517: not pending: nothing is to be cancelled (ghost: an operation whose result is written is not affected by `Op.cancel`)
  | .pending del =>
    if b.status = .pending then some (.cancelIo del, s, b, none)
    else some (.cancelled del, { s with op := s.op.cancel }, b, some (cancelMark del .ok))
  -- afd.rs:522-531
  | .cancelIo del =>
    match fault with
    | none => some (.cancelled del, { s with op := s.op.cancel }, b, some (cancelMark del .ok))
    | some e => some (.fin (cancelOut del (.err e)), s, b, some (cancelMark del (.err e)))
  | .cancelled del => some (.fin (cancelOut del .ok), { s with status := .cancelled }, b, none)
  -- iocp/mod.rs:1071-1078
  | .delRead => if s.waitingOnDelete then some (.fin (.del .ok), s, b, some (.ended .ok)) else some (.delWrite, s, b, none)
  | .delWrite => some (.delStatus, { s with waitingOnDelete := true }, b, none)
  | .delStatus =>
    match s.status with
    | .polling _ => some (.pending true, s, b, none)
    | _ => some (.fin (.del .ok), s, b, some (.ended .ok))
  -- iocp/mod.rs:971-1048 (the operation is over when the section takes effect)
  | .key => some (.idle s.interest.key, s, b, none)
  | .idle key => some (.feedWod key s.status, { s with status := .idle }, b, none)
  | .feedWod key old =>
    if s.waitingOnDelete then some (.fin .noEvent, { s with op := .none }, b, some .tau) else some (.feedIosb key old, s, b, none)
  | .feedIosb key old => some (afterIosb key old b.status, s, b, none)
  | .feedInfo key old =>
    if b.count ≥ 1 then
      if intersects b.events LOCAL_CLOSE then some (.closing, { s with op := .none }, b, some .tau)
      else some (.feedInterest (reported key b.events) old, s, b, none)
    else some (.feedInterest (Event.none key) old, s, b, none)
  | .feedInterest ev _ =>
    if wanted s (narrowed s ev) then
      some (.feedMode (narrowed s ev), { s with op := .none }, b, some (.deliver true s.socket (narrowed s ev)))
    else some (.fin (.fed none), { s with op := .none }, b, some .tau)
  | .feedMode ev => some (if s.mode = .oneshot then .feedClear ev else .fin (.fed (some ev)), s, b, none)
  | .feedClear ev => some (.feedError ev, { s with interest := Event.none s.interest.key }, b, none)
  | .feedError ev => some (.fin (.fed (some ev)), { s with interestError := false }, b, none)
  | _ => none

/-- iocp/mod.rs:1196-1204: dropping a wait handle unregisters the wait. -/
def unregister (w : Wtb) : Wtb := { w with registered := w.registered && decide (w.status ≠ .waiting) }

/-- One access to a waitable's packet by the owner of its mutex. (iocp/mod.rs:788-817, 827-876, 940-967, 1056-1082) -/
def stepWtb (fault : Option Err) (w : Wtb) : Pos → Option (Pos × Wtb × Option Mark)
  -- iocp/mod.rs:809-813
  | .wsetInterest ev mode => some (.wsetMode mode, { w with interest := ev }, none)
  | .wsetMode mode => some (.wsetStatus, { w with mode }, none)
  | .wsetStatus => some (.fin (.set (decide (w.status = .idle))), w, none)
  -- iocp/mod.rs:834-873
  | .winterest =>
    if !w.interest.readable && !w.interest.writable then some (.fin (.upd .ok), w, some .tau) else some (.wstatus, w, none)
  | .wstatus => if w.status ≠ .idle then some (.fin (.upd .ok), w, some .tau) else some (.register, w, none)
  | .register =>
    match fault with
    | some e => some (.fin (.upd (.err e)), w, some .tau)
    | none => some (.waiting, { w with registered := true }, some .tau)
  | .waiting => some (.fin (.upd .ok), { w with status := .waiting }, none)
  -- iocp/mod.rs:955-963
  | .wfeed => some (.wfeedMode w.interest, w, some (.deliver false w.handle w.interest))
  | .wfeedMode ev => some (if w.mode = .oneshot then .wfeedClear ev else .fin (.fed (some ev)), w, none)
  | .wfeedClear ev => some (.fin (.fed (some ev)), { w with interest := Event.none w.interest.key }, none)
  -- iocp/mod.rs:1065
  | .wunregister => some (.wcancelled, unregister w, some (.ended .ok))
  | .wcancelled => some (.fin (.del .ok), { w with status := .cancelled }, none)
  -- iocp/mod.rs:860
  | .cunregister => some (.cidle, unregister w, some .tau)
  | .cidle => some (.fin .posting, { w with status := .idle }, none)
  | _ => none

/-- One access by the owner of the mutex. (iocp/mod.rs:788-1096) -/
def stepPkt (fault : Option Err) (x : Pkt) (b : Buf) (pos : Pos) : Option (Pos × Pkt × Buf × Option Mark) :=
  match x with
  | .socket s => (stepSock fault s b pos).map fun r => (r.1, .socket r.2.1, r.2.2.1, r.2.2.2)
  | .waitable w => (stepWtb fault w pos).map fun r => (r.1, .waitable r.2.1, b, r.2.2)
  | _ => none

/-- The whole state. (iocp/mod.rs:722-753; afd.rs:573-588) -/
structure F where
  /-- memory and positions outside of critical sections.  The owner of a mutex stays at the position at which it took it until it
  releases it; a callback moves from `cb` to `cbPost` when its section takes effect. -/
  m : S
  /-- the mutex of a packet: its owner, and where it is -/
  sec : PId → Option (Who × Pos)
  /-- the memory shared with the kernel -/
  buf : PId → Buf
  /-- kernel: the result of the operation in flight was written -/
  written : PId → Option PollRes
  /-- the packet the thread in `wait` took from its completion entry (iocp/port.rs:276-292), until `feed_event` releases its mutex -/
  taken : Option PId

/-- iocp/mod.rs:121-155. -/
def init : F := { m := IocpM.init, sec := fun _ => none, buf := fun _ => .zero, written := fun _ => none, taken := none }

/-- The packet whose mutex is taken next in `update_packet`. (iocp/mod.rs:506-542) -/
def uSite : UPc → Option PId
  | .run p => some p
  | .drain _ _ q => some q
  | _ => none

/-- The section that a thread takes next, or is in. (iocp/mod.rs:172-419) -/
def pcSite : Pc → Option (Kind × PId)
  | .set (.modify _ _ ev mode) p => some (.set ev mode, p)
  | .del _ p => some (.del, p)
  | .upd _ u => (uSite u).map fun p => (.upd, p)
  | _ => none

/-- The section that the thread in `wait` takes next, or is in. (iocp/mod.rs:422-492, 940-1053) -/
def phaseSite : Phase → Option (Kind × PId)
  | .upd _ q => some (.upd, q)
  | .feed _ (p :: _) => some (.feed, p)
  | .feedUpd _ _ u _ => (uSite u).map fun p => (.upd, p)
  | _ => none

/-- The section that `who` takes next. (iocp/mod.rs:172-542, 847-867) -/
def site (m : S) : Who → Option (Kind × PId)
  | .thread t => pcSite (m.pc t)
  | .waiter => phaseSite m.phase
  | .callback p => if p ∈ m.cb then some (.cb, p) else none

/-- `update_packet` after an update (iocp/mod.rs:510, 541). -/
def resumeU : UPc → Res → UOut
  | .drain p n _, .ok => .more (.pop p n)
  | .drain _ _ _, .err e => .done (.err e)
  | _, r => .done r

/-- A thread after a section. (iocp/mod.rs:172-419) -/
def resumePc : Pc → Out → Pc
  | .set call p, .set more => if more then .upd call (.load p) else .ret call .ok
  | .del _ _, .del _ => .out
  | .upd call u, .upd r =>
    match resumeU u r with
    | .more u => .upd call u
    | .done r => .ret call r
  | pc, _ => pc

/-- The thread in `wait` after a section. (iocp/mod.rs:422-492, 940-1053) -/
def resumePhase : Phase → Out → Phase
  | .upd w _, .upd .ok => .pop w
  | .upd w _, .upd (.err e) => .fail w e
  | .feed w (_ :: batch), .noEvent => .feed w batch
  | .feed w (p :: batch), .fed ev => .feedUpd w batch (.load p) ev
  | .feed _ (_ :: _), .localClose => .stuck
  | .feedUpd w batch u ev, .upd r =>
    match resumeU u r with
    | .more u => .feedUpd w batch u ev
    | .done .ok => .feed (addEvent w ev) batch
    | .done (.err e) => .drain w e batch
  | ph, _ => ph

/-- `who` goes on after its section. (iocp/mod.rs:172-542, 847-867) -/
def resume (m : S) : Who → Out → S
  | .thread t, out => { m with pc := upd m.pc t (resumePc (m.pc t) out) }
  | .waiter, out => { m with phase := resumePhase m.phase out }
  | .callback _, _ => m

/-- What is observed when a section takes effect. (plumbing of the model, no counterpart in the code) -/
def Mark.obs (m : S) (who : Who) (p : PId) : Mark → IObs
  | .tau => .tau
  | .polled mask => .polled p mask
  | .deliver k fd ev => .deliver k fd p ev
  | .ended r =>
    match who with
    | .thread t =>
      match m.pc t with
      | .del call _ => .deleted t (callSock call) (callFd call) p r
      | _ => .tau
    | _ => .tau

/-- What is observed when a mutex is taken: `set_events` takes effect then.
(plumbing of the model, no counterpart in the code) -/
def lockObs (m : S) (p : PId) : Who → Option IObs
  | .thread t =>
    match m.pc t with
    | .set (.modify k fd ev mode) _ => some (.changed t k fd p ev mode)
    | _ => none
  | _ => none

/-- A callback whose section takes effect. (iocp/mod.rs:847-867) -/
def advance (m : S) : Who → S
  | .callback p => { m with cb := m.cb.erase p, cbPost := p :: m.cbPost }
  | _ => m

/-- `sec`, `buf` or `written` with one entry replaced. (plumbing of the model, no counterpart in the code) -/
def put {α : Type} (f : PId → α) (p : PId) (x : α) : PId → α := fun q => if q = p then x else f q

/-- Is there a mutex to take? (iocp/mod.rs:722-753) -/
def locks (m : S) (who : Who) : Bool :=
  match site m who with
  | some (k, p) => (entry k (m.c.pk p)).isSome
  | none => false

/-- The thread in `wait` has a completion entry to convert, and did not do so yet. (iocp/mod.rs:465-469) -/
def untaken (f : F) : Bool :=
  match f.m.phase with
  | .feed _ (_ :: _) => f.taken.isNone
  | _ => false

/-- The callback of the packet that holds its mutex and is on its way out. (iocp/mod.rs:847-867) -/
def leaving (f : F) (p : PId) : Nat :=
  match f.sec p with
  | some (.callback _, .cidle) | some (.callback _, .fin _) => 1
  | _ => 0

/-- The steps of `IocpM` that are no critical sections. (iocp/mod.rs:172-542 outside of 788-1096) -/
def plain (f : F) : Act → Bool
  | .go t _ => !locks f.m (.thread t)
  | .wait _ => !locks f.m .waiter && !untaken f
  | .callback _ => false
  | .callbackPost p _ => decide (leaving f p < f.m.cbPost.count p)
  | .complete p r => decide (f.written p = some r)
  | _ => true

/-- Steps. (iocp/mod.rs:788-1096) -/
inductive FAct where
  /-- a step outside of critical sections -/
  | plain (a : Act)
  /-- iocp/port.rs:276-292 `into_packet`: the packet of the next completion entry is no longer in use -/
  | take
  /-- the mutex of the packet is taken -/
  | lock (who : Who) (p : PId)
  /-- the next access of the owner of the mutex of `p` -/
  | access (p : PId) (fault : Option Err)
  /-- the mutex is released -/
  | unlock (p : PId)
  /-- the kernel writes the result of the operation of `p` -/
  | write (p : PId) (r : PollRes)
deriving DecidableEq, Repr

/-- iocp/port.rs:290 `unlock` (afd.rs:645): a store without the mutex. -/
def clearInUse : Pkt → Pkt
  | .socket s => .socket { s with inUse := false }
  | x => x

/-- The local variable of `wait` after a step outside of critical sections: a packet without a mutex is processed in one step.
(iocp/mod.rs:465-469; iocp/port.rs:276-292) -/
def takenAfter (f : F) : Act → Option PId
  | .wait _ => none
  | _ => f.taken

/-- The kernel's record of written results after a step outside of critical sections. (OS; afd.rs:477-490) -/
def writtenAfter (f : F) : Act → PId → Option PollRes
  | .complete p _ => put f.written p none
  | _ => f.written

/-- The effect of a step; what is observed of it, if it is not internal to a section. (iocp/mod.rs:172-542, 788-1096) -/
def fstep (threads : Nat) (f : F) : FAct → Option (F × Option IObs)
  | .plain a =>
    if plain f a then
      (step threads f.m a).map fun r => ({ f with m := r.1, taken := takenAfter f a, written := writtenAfter f a }, some r.2)
    else none
  | .take =>
    match f.m.phase with
    | .feed _ (p :: _) =>
      if f.taken = none then
        some ({ f with m := { f.m with c := setPk f.m.c p (clearInUse (f.m.c.pk p)) }, taken := some p }, none)
      else none
    | _ => none
  | .lock who p =>
    match site f.m who with
    | some (k, q) =>
      if q = p ∧ f.sec p = none ∧ (k = .feed → f.taken = some p) then
        (entry k (f.m.c.pk p)).map fun pos => ({ f with sec := put f.sec p (some (who, pos)) }, lockObs f.m p who)
      else none
    | none => none
  | .access p fault =>
    match f.sec p with
    | some (who, pos) =>
      (stepPkt fault (f.m.c.pk p) (f.buf p) pos).map fun r =>
        let m := { f.m with c := setPk f.m.c p r.2.1 }
        ({ f with
            m := if r.2.2.2.isSome then advance m who else m
            sec := put f.sec p (some (who, r.1)), buf := put f.buf p r.2.2.1 },
          r.2.2.2.map fun mark => mark.obs f.m who p)
    | none => none
  | .unlock p =>
    match f.sec p with
    | some (who, .fin out) =>
      some ({ f with
          m := resume f.m who out
          sec := put f.sec p none
          taken := if who = .waiter then none else f.taken }, none)
    | _ => none
  | .write p r =>
    match f.m.c.pk p with
    | .socket s =>
      match s.op with
      | .inFlight mask cancelling =>
        if f.written p = none ∧ possible mask cancelling r = true then
          some ({ f with buf := put f.buf p ((f.buf p).write r), written := put f.written p (some r) }, none)
        else none
      | _ => none
    | _ => none

/-- Reachable states with the trace of what was observed, latest first, by steps that satisfy `Q` only.
(plumbing of the model, no counterpart in the code) -/
inductive FReach (threads : Nat) (Q : F → FAct → Prop) : F → List IObs → Prop
  | init : FReach threads Q init []
  | step {f tr a f' o} : FReach threads Q f tr → Q f a → fstep threads f a = some (f', o) → FReach threads Q f' (o.toList ++ tr)

/-- Every step. (plumbing of the model, no counterpart in the code) -/
def FAny : F → FAct → Prop := fun _ _ => True

/-- Run a list of steps. (plumbing of the model, no counterpart in the code) -/
def runF (threads : Nat) (f : F) : List FAct → Option (F × List IObs)
  | [] => some (f, [])
  | a :: as => (fstep threads f a).bind fun r => (runF threads r.1 as).map fun q => (q.1, q.2 ++ r.2.toList)

end Polling.IocpF
