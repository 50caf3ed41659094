import Verif.Model.IocpM

/-
Reference counts of the IOCP packets (iocp/mod.rs:722 `type Packet = Pin<Arc<..>>`).

The machine is that of `IocpM`; each of its steps is accompanied by the operations on reference counts that the code makes, in
their order: `Arc::pin`, `clone`, the drop of a variable, and accesses through a reference or raw pointer.  A reference that is
moved, `Arc::into_raw` (iocp/port.rs:95 `into_ptr`) and `Arc::from_raw` (iocp/port.rs:99 `from_ptr`) do not change the count: the reference
is then owned by whoever has the pointer.  In addition the user may clone and drop completion packets, and the poller
may be dropped, after which only the kernel and callbacks act.
-/

namespace Polling.IocpM.Rc
open Iocp

/-- Strong counts of the packets; `bad`: a packet was used, cloned or dropped after it was freed.
(iocp/mod.rs:722-753: the packets) -/
structure Heap where
  rc : PId → Nat
  bad : Bool

/-- Operations on counts. (`Arc` operations: iocp/mod.rs:172-542, 827-1096; afd.rs:439-532; iocp/port.rs:199-216, 274-299) -/
inductive HOp where
  /-- `Arc::pin` -/
  | alloc (p : PId)
  | clone (p : PId)
  | drop (p : PId)
  /-- an access to the packet, by a thread or by the kernel -/
  | touch (p : PId)
deriving DecidableEq, Repr

/-- `rc` with one entry replaced. (plumbing of the model, no counterpart in the code) -/
def setRc (rc : PId → Nat) (p : PId) (n : Nat) : PId → Nat := fun q => if q = p then n else rc q

/-- Semantics of `Arc`: the packet is freed when the count becomes zero. (std `Arc`) -/
def Heap.op (h : Heap) : HOp → Heap
  | .alloc p => ⟨setRc h.rc p 1, h.bad || h.rc p != 0⟩
  | .clone p => ⟨setRc h.rc p (h.rc p + 1), h.bad || h.rc p == 0⟩
  | .drop p => ⟨setRc h.rc p (h.rc p - 1), h.bad || h.rc p == 0⟩
  | .touch p => ⟨h.rc, h.bad || h.rc p == 0⟩

/-- Several operations. (plumbing of the model, no counterpart in the code) -/
def Heap.run (h : Heap) (ops : List HOp) : Heap := ops.foldl Heap.op h

/-- iocp/mod.rs:827-934 `update(self: Pin<Arc<Self>>)`. -/
def updateOps (c : Core) (p : PId) : List HOp :=
  match c.pk p with
  | .socket s =>
    [.touch p] ++
    (if s.waitingOnDelete then []
     else match s.status with
      -- line 892, afd.rs:508-523: `cancel` reads the status through `as_ptr`
      | .polling _ => [.touch p]
      | .cancelled => []
      -- line 908 `self.clone()`, moved into `Afd::poll`; afd.rs:448-452: dropped if the packet is in use;
      -- otherwise afd.rs:470 `into_ptr`: it belongs to the kernel
      | .idle => if s.inUse then [.clone p, .touch p, .drop p] else [.clone p, .touch p]) ++ [.drop p]
  | .waitable w =>
    [.touch p] ++
    (if !w.interest.readable && !w.interest.writable then []
     else if w.status ≠ .idle then []
     -- line 844 `self.clone()`, moved into the closure, which is boxed and given to the kernel (line 1250)
     else [.clone p]) ++ [.drop p]
  | _ => [.touch p, .drop p]

/-- The reference that is lost because the OS refuses the operation: a raw pointer that nobody converts back (afd.rs:470-500,
iocp/mod.rs:1245-1258). -/
def updateLost (fault : Option Err) (c : Core) (p : PId) : List PId :=
  match fault with
  | none => []
  | some _ =>
    match c.pk p with
    | .socket s => if !s.waitingOnDelete && s.status == .idle && !s.inUse then [p] else []
    | .waitable w => if (w.interest.readable || w.interest.writable) && w.status == .idle then [p] else []
    | _ => []

/-- iocp/mod.rs:506-542 `update_packet(packet)` and `drain_update_queue`. -/
def ustepOps (fault : Option Err) (c : Core) : UPc → List HOp
  | .load _ => []
  | .run p => updateOps c p
  -- moved into the queue, or given back
  | .push _ => []
  -- moved out of the queue
  | .pop _ _ => []
  -- if the update fails, `?` in line 521 drops `packet`
  | .drain p _ q => updateOps c q ++ (match (update fault c q).1 with | .ok => [] | .err _ => [.drop p])

/-- The reference that such a step loses: that of `update`. (afd.rs:470-500) -/
def ustepLost (fault : Option Err) (c : Core) : UPc → List PId
  | .run p => updateLost fault c p
  | .drain _ _ q => updateLost fault c q
  | _ => []

/-- The next step of a registration call. (iocp/mod.rs:172-419, 506-542) -/
def goOps (s : S) (t : Tid) (fault : Option Err) : List HOp :=
  match s.pc t with
  | .table call =>
    match call with
    | .add k fd _ _ =>
      match s.c.table k fd with
      -- iocp/mod.rs:209 (335), 225 (350): the new packet is dropped
      | some _ => [.alloc s.c.next, .drop s.c.next]
      -- iocp/mod.rs:221 (346): a clone is inserted
      | none => [.alloc s.c.next, .clone s.c.next]
    | .modify k fd _ _ =>
      match s.c.table k fd with
      | none => []
      -- iocp/mod.rs:263 (387) `.cloned()`
      | some p => [.clone p]
    -- iocp/mod.rs:290 (408): moved out of the table
    | .delete _ _ => []
  | .set call p =>
    match call with
    | .modify _ _ ev mode => [.touch p] ++ (if (setEvents s.c p ev mode).1 then [] else [.drop p])
    | _ => []
  -- iocp/mod.rs:1056 `begin_delete(self: Pin<Arc<Self>>)`
  | .del _ p => [.touch p, .drop p]
  | .upd _ u => ustepOps fault s.c u
  | _ => []

/-- `begin_delete` unregisters the wait; the box that was given to `RegisterWaitForSingleObject` is lost (iocp/mod.rs:1065,
1196-1202). -/
def goLost (s : S) (t : Tid) (fault : Option Err) : List PId :=
  match s.pc t with
  | .del _ p => match s.c.pk p with | .waitable w => if w.registered then [p] else [] | _ => []
  | .upd _ u => ustepLost fault s.c u
  | _ => []

/-- The next step of `wait`. (iocp/mod.rs:422-492) -/
def waitOps (s : S) (fault : Option Err) : List HOp :=
  match s.phase with
  | .upd _ q => updateOps s.c q
  -- iocp/port.rs:276-292 `into_packet`: `from_ptr`, `unlock`; the entry is forgotten
  | .feed _ (p :: _) => [.touch p] ++
    (match (feed s.c p).1 with
      | .noEvent | .notified | .custom _ => [.drop p]
      -- iocp/mod.rs:1049 (964): moved into `update_packet`
      | .localClose | .update .. => [])
  | .feedUpd _ _ u _ => ustepOps fault s.c u
  -- iocp/port.rs:295-299: the other entries are dropped
  | .drain _ _ (p :: _) => [.touch p, .drop p]
  | _ => []

/-- The reference that a step of `wait` loses: that of `update` (iocp/mod.rs:449, 1049). -/
def waitLost (s : S) (fault : Option Err) : List PId :=
  match s.phase with
  | .upd _ q => updateLost fault s.c q
  | .feedUpd _ _ u _ => ustepLost fault s.c u
  | _ => []

/-- The operations of a step of `IocpM`. (iocp/mod.rs:172-542, 847-867) -/
def actOps (s : S) : Act → List HOp
  | .go t fault => goOps s t fault
  -- iocp/mod.rs:705
  | .newPacket _ => [.alloc s.c.next]
  -- iocp/mod.rs:497 `self.notifier.clone()`
  | .notifyPost _ _ => [.clone NOTIFIER]
  | .wait fault => waitOps s fault
  -- the kernel writes the result
  | .complete p _ => [.touch p]
  -- iocp/mod.rs:848-866
  | .callback p => [.touch p]
  | _ => []

/-- The references that a step loses. (afd.rs:470-500; iocp/mod.rs:847-867) -/
def actLost (s : S) : Act → List PId
  | .go t fault => goLost s t fault
  | .wait fault => waitLost s fault
  -- iocp/port.rs:199-216: `into_ptr`, and then the call fails
  | .post p fault => if fault = none then [] else [p]
  | .notifyPost _ fault => if fault = none then [] else [NOTIFIER]
  | .callbackPost p fault => if fault = none then [] else [p]
  -- the wait handle in `status` is dropped
  | .callback p => match s.c.pk p with | .waitable w => if w.registered then [p] else [] | _ => []
  | _ => []

/-- The machine with counts. (iocp/mod.rs:71-114, 722-753) -/
structure R where
  s : S
  h : Heap
  /-- completion packets the user has -/
  user : PId → Nat
  /-- the poller was not dropped yet -/
  alive : Bool
  /-- ghost: references that nobody can drop any more -/
  lost : PId → Nat

/-- iocp/mod.rs:121-155 `Poller::new`: the notifier (line 148) is the only packet. -/
def init : R where
  s := IocpM.init
  h := ⟨fun p => if p = NOTIFIER then 1 else 0, false⟩
  user := fun _ => 0
  alive := true
  lost := fun _ => 0

/-- Steps. (iocp/mod.rs:172-542, 699-717) -/
inductive RAct where
  | act (a : Act)
  /-- os/iocp.rs: `CompletionPacket` is `Clone` -/
  | userClone (p : PId)
  | userDrop (p : PId)
  /-- the `Poller` is dropped -/
  | dropPoller
deriving DecidableEq, Repr

/-- The packet is in the table of its kind. (iocp/mod.rs:91-94) -/
def inTable (c : Core) (p : PId) : Bool :=
  match c.pk p with
  | .socket s => c.table true s.socket == some p
  | .waitable w => c.table false w.handle == some p
  | _ => false

/-- `post` consumes a completion packet. (iocp/mod.rs:501-503) -/
def userOk (r : R) : Act → Bool
  | .post p _ => r.user p != 0
  | _ => true

/-- The completion packets that the user has after a step: `CompletionPacket::new` (iocp/mod.rs:704-708) gives one, `post` (line 501)
takes one. -/
def userAfter (r : R) : Act → PId → Nat
  | .post p _ => setRc r.user p (r.user p - 1)
  | .newPacket _ => setRc r.user r.s.c.next 1
  | _ => r.user

/-- Count lost references. (plumbing of the model, no counterpart in the code) -/
def addLost (lost : PId → Nat) (l : List PId) : PId → Nat := fun q => lost q + l.count q

/-- The poller is dropped: no calls are in progress.  The notifier, the tables and the queue drop their packets; the completion
port is closed with what is in it. (iocp/mod.rs:71-114: the fields) -/
def dropPoller (threads : Nat) (r : R) : Option R :=
  if r.alive && decide (r.s.phase = .idle) && (List.range threads).all fun t => decide (r.s.pc t = .out) then
    let c := r.s.c
    some { r with
      s := { r.s with c := { c with table := fun _ _ => none, pending := [], port := [] } }
      h := r.h.run (((List.range c.next).filter (inTable c)).map .drop ++ c.pending.map .drop ++ [.drop NOTIFIER])
      alive := false
      lost := addLost r.lost c.port }
  else none

/-- After the poller was dropped: operations complete, and waits fire.  The completion port is gone, so what is put into it is
lost. (OS; iocp/mod.rs:847-867) -/
def deadStep (threads : Nat) (r : R) (a : Act) : Option R :=
  match a with
  | .complete p _ => (step threads r.s a).map fun x =>
      { r with s := { x.1 with c := { x.1.c with port := [] } }, h := r.h.run [.touch p], lost := addLost r.lost [p] }
  | .fire _ => (step threads r.s a).map fun x => { r with s := x.1 }
  -- iocp/mod.rs:854-857: `upgrade` fails; the closure is dropped
  | .callback p =>
    if p ∈ r.s.cb then some { r with s := { r.s with cb := r.s.cb.erase p }, h := r.h.run [.touch p, .drop p] } else none
  -- the callback has upgraded its reference to the port before
  | .callbackPost p _ => (step threads r.s a).map fun x =>
      { r with s := { x.1 with c := { x.1.c with port := [] } }, lost := addLost r.lost [p] }
  | .newPacket _ => (step threads r.s a).map fun x =>
      { r with s := x.1, h := r.h.run (actOps r.s a), user := userAfter r a }
  | _ => none

/-- The effect of a step; `none` if it is not possible. (iocp/mod.rs:172-542, 699-717, 847-867) -/
def rstep (threads : Nat) (r : R) : RAct → Option R
  | .act a =>
    if r.alive then
      if userOk r a then (step threads r.s a).map fun x =>
        { r with s := x.1, h := r.h.run (actOps r.s a), user := userAfter r a, lost := addLost r.lost (actLost r.s a) }
      else none
    else deadStep threads r a
  | .userClone p => if r.user p = 0 then none else some { r with h := r.h.run [.clone p], user := setRc r.user p (r.user p + 1) }
  | .userDrop p => if r.user p = 0 then none else some { r with h := r.h.run [.drop p], user := setRc r.user p (r.user p - 1) }
  | .dropPoller => dropPoller threads r

/-- Reachable states, by steps that satisfy `P`. (plumbing of the model, no counterpart in the code) -/
inductive Reach (threads : Nat) (P : R → RAct → Prop) : R → Prop
  | init : Reach threads P init
  | step {r a r'} : Reach threads P r → P r a → rstep threads r a = some r' → Reach threads P r'

/-- Run a list of steps. (plumbing of the model, no counterpart in the code) -/
def runR (threads : Nat) (r : R) : List RAct → Option R
  | [] => some r
  | a :: as => (rstep threads r a).bind fun r => runR threads r as

end Polling.IocpM.Rc
