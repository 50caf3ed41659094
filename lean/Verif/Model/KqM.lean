import Verif.Spec.KqTrace

/-
The kqueue backend (kqueue.rs, os/kqueue.rs) together with the portable layer (lib.rs) and the part of the kernel it
uses, as a transition system.

* Every thread (`Tid`, below `Cfg.threads`, which is arbitrary) has a position `Pc`.  Every operation on the set of
  sources, on `notified`, every change processed by `kevent` and every other system call is one step; so the two changes
  of a registration call can be interleaved with steps of other threads.
* The kernel part is the contract of kqueue(2), in the trusted base: knotes identified by filter, a queue of active knotes
  served in order, one receipt per change with `EV_RECEIPT`.  Where kernels differ, or the manual leaves it open, there
  is a parameter in `Cfg` (`keepMode`, `recheck`, `autoClear`).
* Simplified: timeouts (a `wait` with a timeout may return at any time, `timed`; the time itself is treated in
  `Model/WaitTiming.lean`), the contents of `data`/`fflags`, closing of descriptors that are registered.
-/

namespace Polling.KqM
open Kqueue KqSpec

/-- What kind of kernel and poller. (kqueue.rs:16-70, 402-561; the rest is the OS) -/
structure Cfg where
  /-- the notifier is `EVFILT_USER` (kqueue.rs:397-475) and not a pair of sockets (kqueue.rs:477-561) -/
  user : Bool
  /-- `read_stream` (kqueue.rs:497), for the pair of sockets -/
  notifFd : Fd
  /-- kernel: `EV_ADD` of an existing knote keeps its `EV_ONESHOT` and `EV_CLEAR` -/
  keepMode : Filter → Bool
  /-- kernel: an active one-shot knote is only delivered if its condition still holds -/
  recheck : Bool
  /-- kernel: knotes of the filter always have `EV_CLEAR` (timers, signals) -/
  autoClear : Filter → Bool
  /-- `Signal::from_raw` (rustix) accepts the number -/
  validSignal : Int → Bool
  threads : Nat

/-- The filter belongs to the poller. (kqueue.rs:402-561) -/
def Cfg.internal (c : Cfg) (f : Filter) : Bool :=
  if c.user then f == .user 0 else f == .read c.notifFd || f == .write c.notifFd

/-- A knote. (part of the OS, no counterpart in the code) -/
structure Knote where
  udata : BitVec 64
  oneshot : Bool
  clear : Bool
deriving DecidableEq, Repr

/-- Kernel state. (part of the OS, no counterpart in the code) -/
structure Kern where
  knotes : Filter → Option Knote
  /-- active knotes, in order -/
  queue : List Filter
  /-- whether the condition of a user's filter holds now, and then whether it is an end-of-file -/
  cond : Filter → Option Bool
  /-- bytes in the pair of sockets -/
  chan : Nat

/-- Whether the condition of a filter holds.  A user filter is ready once it is active.
(part of the OS, no counterpart in the code) -/
def ready (c : Cfg) (k : Kern) (f : Filter) : Option Bool :=
  if c.user then (if f = .user 0 then some false else k.cond f)
  else if f = .read c.notifFd then (if k.chan > 0 then some false else none)
  else if f = .write c.notifFd then some false
  else k.cond f

/-- Kernel `KNOTE_ACTIVATE`. (part of the OS, no counterpart in the code) -/
def activate (k : Kern) (f : Filter) : Kern :=
  if (k.knotes f).isSome ∧ f ∉ k.queue then { k with queue := k.queue ++ [f] } else k

/-- Part of the OS, no counterpart in the code. -/
def setKnote (k : Kern) (f : Filter) (n : Option Knote) : Kern :=
  { k with knotes := fun x => if x = f then n else k.knotes x }

/-- Becomes active when (re-)added: user filters only if triggered, the others if their condition holds.
(part of the OS, no counterpart in the code) -/
def fires (c : Cfg) (k : Kern) (ev : KEvent) : Bool :=
  match ev.filter with
  | .user _ => ev.trigger
  | f => (ready c k f).isSome

/-- Kernel `ENOENT`, `EPIPE`. (OS; kqueue.rs:165) -/
def ENOENT : Nat := 2
/-- OS; kqueue.rs:166. -/
def EPIPE : Nat := 32

/-- Kernel: the knote after `EV_ADD`. (OS; asked for at kqueue.rs:111-136) -/
def added (c : Cfg) (old : Option Knote) (ev : KEvent) : Knote :=
  match old with
  | some n => if c.keepMode ev.filter then { n with udata := ev.udata }
    else ⟨ev.udata, ev.flags.oneshot, ev.flags.clear || c.autoClear ev.filter⟩
  | none => ⟨ev.udata, ev.flags.oneshot, ev.flags.clear || c.autoClear ev.filter⟩

/-- Kernel `kqueue_register`: one change of the change list.  `fault`: an error the OS chooses to return.
Returns the errno. (OS; called at kqueue.rs:154) -/
def register (c : Cfg) (fault : Option Nat) (k : Kern) (ev : KEvent) : Nat × Kern :=
  match fault with
  | some e => (e, k)
  | none =>
    if ev.flags.add then
      let k := setKnote k ev.filter (some (added c (k.knotes ev.filter) ev))
      (0, if fires c k ev then activate k ev.filter else k)
    else if ev.flags.delete then
      match k.knotes ev.filter with
      | none => (ENOENT, k)
      | some _ =>
        let k := setKnote k ev.filter none
        (0, { k with queue := k.queue.filter (· ≠ ev.filter) })
    else (0, k)

/-- Kernel: the receipt for a change (`EV_ERROR` set, `data` the errno). (OS; read at kqueue.rs:159-170) -/
def receipt (ev : KEvent) (errno : Nat) : KEvent :=
  { ev with flags := { ev.flags with error := true }, data := errno }

/-- Result of scanning the queue. (part of the OS, no counterpart in the code) -/
structure Scan where
  evs : List KEvent
  knotes : Filter → Option Knote
  /-- not reached because the buffer was full -/
  rest : List Filter
  /-- level-triggered knotes, put back at the end -/
  back : List Filter

/-- Kernel `kqueue_scan`: go through the active knotes, at most `room` events. (OS; called at kqueue.rs:240) -/
def scan (c : Cfg) (rdy : Filter → Option Bool) : Nat → List Filter → (Filter → Option Knote) → Scan
  | _, [], kn => ⟨[], kn, [], []⟩
  | 0, l, kn => ⟨[], kn, l, []⟩
  | room + 1, f :: l, kn =>
    match kn f with
    | none => scan c rdy (room + 1) l kn
    | some n =>
      if (rdy f).isSome || (n.oneshot && !c.recheck) then
        let r := scan c rdy room l (if n.oneshot then fun x => if x = f then none else kn x else kn)
        { r with
          evs := { filter := f, flags := { oneshot := n.oneshot, clear := n.clear, eof := rdy f == some true },
                   udata := n.udata } :: r.evs
          back := if !n.oneshot && !n.clear then f :: r.back else r.back }
      else scan c rdy (room + 1) l kn

/-- Kernel `kevent` without changes, successful part: the events and the new state. (OS; called at kqueue.rs:240) -/
def harvest (c : Cfg) (k : Kern) (maxevents : Nat) : List KEvent × Kern :=
  let r := scan c (ready c k) maxevents k.queue k.knotes
  (r.evs, { k with knotes := r.knotes, queue := r.rest ++ r.back })

/-- Flags of a change: `EV_ADD | mode_to_flags(mode)` or `EV_DELETE`, with `EV_RECEIPT` (kqueue.rs:111-136). -/
def changeFlags (wanted : Bool) (mode : PollMode) : EvFlags :=
  if wanted then { modeToFlags mode with add := true, receipt := true } else { delete := true, receipt := true }

/-- kqueue.rs:111-136 the change list of `modify`. -/
def fdChanges (fd : Fd) (ev : Event EventExtra) (mode : PollMode) : List KEvent :=
  [{ filter := .read fd, flags := changeFlags ev.readable mode, udata := keyToU64 ev.key },
   { filter := .write fd, flags := changeFlags ev.writable mode, udata := keyToU64 ev.key }]

/-- os/kqueue.rs:153-162, 230-246, 270-279 `FilterSealed::filter`: which kernel filter. -/
def Ext.filter : Ext → Filter
  | .signal n => .signal n
  | .process p => .proc p
  | .timer i => .timer i

/-- os/kqueue.rs:164-167, 248-252, 281-284 `FilterSealed::source_id`. -/
def Ext.source : Ext → Source
  | .signal n => .signal n
  | .process p => .pid p
  | .timer i => .timer i

/-- os/kqueue.rs:156 `from_raw(self.0).expect("invalid signal number")` does not panic. -/
def Ext.valid (c : Cfg) : Ext → Bool
  | .signal n => c.validSignal n
  | _ => true

/-- The changes a call submits (kqueue.rs:95-140, 221-226; os/kqueue.rs:106-124). -/
def changes : Call → List KEvent
  | .add fd ev mode | .modify fd ev mode => fdChanges fd ev mode
  | .delete fd => fdChanges fd (Event.none 0) .oneshot
  | .addFilter x key mode | .modifyFilter x key mode =>
    [{ filter := Ext.filter x, flags := changeFlags true mode, udata := keyToU64 key }]
  | .deleteFilter x => [{ filter := Ext.filter x, flags := changeFlags false .oneshot, udata := 0 }]

/-- The source a call is about. (kqueue.rs:87-140, 177-226; os/kqueue.rs:98-124, 165, 249, 282) -/
def source : Call → Source
  | .add fd _ _ | .modify fd _ _ | .delete fd => .fd fd
  | .addFilter x _ _ | .modifyFilter x _ _ | .deleteFilter x => Ext.source x

/-- The conversion of the call's filter does not panic. (os/kqueue.rs:151-168, 228-253, 269-285) -/
def valid (c : Cfg) : Call → Bool
  | .addFilter x _ _ | .modifyFilter x _ _ | .deleteFilter x => Ext.valid c x
  | _ => true

/-- kqueue.rs:421-432 and 441-454, the changes of the `EVFILT_USER` notifier. -/
def userChange (trigger : Bool) : KEvent :=
  { filter := .user 0, flags := { add := true, receipt := true, clear := !trigger }, udata := keyToU64 NOTIFY_KEY, trigger }

/-- kqueue.rs:159-170: the error of `submit_changes`, the first receipt whose error counts. -/
def submitResult : List KEvent → Res
  | [] => .ok
  | ev :: l =>
    if ev.flags.error && ev.data != 0 && ev.data != ENOENT && ev.data != EPIPE then .err (.os ev.data.toNat)
    else submitResult l

/-- What a thread is submitting changes for. (kqueue.rs:143-173, 402-561) -/
inductive Work where
  | call (c : Call)
  /-- `notify` on an `EVFILT_USER` notifier -/
  | notify
  /-- `reregister` at the end of `wait`, on a pair of sockets -/
  | rearm (timed : Bool) (cap : Nat) (evs : List KEvent)
deriving DecidableEq, Repr

/-- Where a thread is. (kqueue.rs:87-264, 402-561; lib.rs:731-800) -/
inductive Pc where
  | out
  /-- kqueue.rs:177 `add_source` is next -/
  | insert (c : Call)
  /-- kqueue.rs:194 `has_source` is next -/
  | has (c : Call)
  /-- kqueue.rs:154, in `kevent`: changes still to be processed, receipts so far -/
  | submit (w : Work) (todo done : List KEvent)
  /-- kqueue.rs:207 `remove_source` is next -/
  | remove (c : Call)
  /-- the source was removed; about to return -/
  | ending (c : Call)
  /-- kqueue.rs:545 the write is next -/
  | nWrite
  /-- kqueue.rs:240 in `kevent` -/
  | wKev (timed : Bool) (cap : Nat)
  /-- kqueue.rs:531 reading the notification away -/
  | wClear (timed : Bool) (cap : Nat) (evs : List KEvent)
  /-- kqueue.rs:534 `has_source` of the re-registration -/
  | wHas (timed : Bool) (cap : Nat) (evs : List KEvent)
  /-- lib.rs:755 -/
  | wFin (evs : List KEvent)
deriving DecidableEq, Repr

/-- The whole state. (kqueue.rs:16-30; lib.rs:434-438) -/
structure S where
  k : Kern
  /-- kqueue.rs:23 `sources` -/
  sources : Source → Bool
  /-- lib.rs `Poller::notified` -/
  notified : Bool
  /-- the holder of lib.rs `Poller::lock` -/
  lib : Option Tid
  pc : Tid → Pc

/-- Plumbing of the model, no counterpart in the code. -/
def upd (pc : Tid → Pc) (t : Tid) (p : Pc) : Tid → Pc := fun u => if u = t then p else pc u

/-- kqueue.rs:51-70 `Poller::new` (successful) with the notifier registered. -/
def init (c : Cfg) (cond : Filter → Option Bool) : S :=
  let k : Kern := ⟨fun _ => none, [], cond, 0⟩
  if c.user then
    ⟨(register c none k (userChange false)).2, fun _ => false, false, none, fun _ => .out⟩
  else
    let chg := fdChanges c.notifFd (Event.onlyReadable NOTIFY_KEY) .oneshot
    ⟨chg.foldl (fun k ev => (register c none k ev).2) k, fun x => x == .fd c.notifFd, false, none, fun _ => .out⟩

/-- lib.rs:881-883 `Events::iter` over the raw events (kqueue.rs:307-327). -/
def visible (evs : List KEvent) : List (Event EventExtra) :=
  (evs.map toEvent).filter fun ev => ev.key != NOTIFY_KEY

/-- Steps of a thread (and of the environment). (kqueue.rs:87-264, 402-561; lib.rs:548-800) -/
inductive Act where
  /-- a registration call begins -/
  | call (c : Call)
  /-- the next operation on the set of sources -/
  | src
  /-- `kevent` processes the next change; `fault`: an error the OS chooses -/
  | change (fault : Option Nat)
  /-- `kevent` as a whole fails -/
  | kfail (e : Err)
  /-- kqueue.rs:159-172 look at the receipts; or return after `remove_source` -/
  | eval
  /-- lib.rs:792-796 compare-exchange -/
  | notifyCas
  /-- kqueue.rs:545 write one byte; `fail`: the write fails -/
  | write (fail : Bool)
  /-- lib.rs:735 `try_lock` -/
  | wait (timed : Bool) (cap : Nat)
  /-- kqueue.rs:240 `kevent` returns, with events or because the time is over -/
  | kevent
  /-- kqueue.rs:531 one `read` of at most 64 bytes; `fail`: it fails although there are bytes -/
  | read (fail : Bool)
  /-- lib.rs:755-758 reset `notified` and return -/
  | finish
  /-- the condition of a user's filter changes, or is raised anew -/
  | cond (f : Filter) (v : Option Bool)
deriving DecidableEq, Repr

/-- The backend's `wait` failed (lib.rs:744-752): retry if interrupted, else return the error. -/
def waitFail (s : S) (t : Tid) (timed : Bool) (cap : Nat) (e : Err) : S × KObs :=
  if e = .interrupted then ({ s with pc := upd s.pc t (.wKev timed cap) }, .tau)
  else ({ s with pc := upd s.pc t .out, lib := none }, .waitErr t e)

/-- Observation of one change. (plumbing of the model, no counterpart in the code) -/
def changeObs (t : Tid) (ev : KEvent) (errno : Nat) : KObs :=
  if errno ≠ 0 then .refused t ev.filter errno
  else if ev.flags.add then .armed t ev.filter ev.udata ev.flags.oneshot ev.flags.clear
  else .disarmed t ev.filter

/-- The call only concerns what users can name: not the poller's own socket.
(kqueue.rs:402-561: the notifier without `EVFILT_USER`) -/
def accessible (c : Cfg) (call : Call) : Bool :=
  c.user || source call != .fd c.notifFd

/-- lib.rs:554, 659: the reserved key is rejected (not by the extension, os/kqueue.rs:100-114). -/
def reserved : Call → Bool
  | .add _ ev _ | .modify _ ev _ => ev.key == NOTIFY_KEY
  | _ => false

/-- Submission is over with the result `r`. (kqueue.rs:139, 221-226, 249, 255-264, 435-457) -/
def submitted (s : S) (t : Tid) (w : Work) (r : Res) : S × KObs :=
  match w with
  | .call call =>
    match r, call with
    | .ok, .delete _ | .ok, .deleteFilter _ => ({ s with pc := upd s.pc t (.remove call) }, .tau)
    | r, _ => ({ s with pc := upd s.pc t .out }, .ret t call (.res r))
  | .notify => ({ s with pc := upd s.pc t .out }, .notified t)  -- kqueue.rs:255-263: errors are ignored
  | .rearm timed cap evs =>
    match r with
    | .ok => ({ s with pc := upd s.pc t (.wFin evs) }, .tau)
    | .err e => waitFail s t timed cap e

/-- The effect of a step of thread `t` and what can be observed of it; `none` if the step is not possible.
(kqueue.rs:87-264, 402-561; lib.rs:731-800) -/
def step (c : Cfg) (s : S) (t : Tid) (a : Act) : Option (S × KObs) :=
  if t ≥ c.threads then none else
  match a, s.pc t with
  | .call call, .out =>
    if !accessible c call then none
    else match call with
      | .add _ _ _ | .addFilter _ _ _ =>
        if reserved call then some (s, .ret t call (.res (.err .invalidInput)))
        else some ({ s with pc := upd s.pc t (.insert call) }, .begin t call)
      | .modify _ _ _ | .modifyFilter _ _ _ | .delete _ =>
        if reserved call then some (s, .ret t call (.res (.err .invalidInput)))
        else some ({ s with pc := upd s.pc t (.has call) }, .begin t call)
      | .deleteFilter _ =>
        if !valid c call then some (s, .ret t call .panic)
        else some ({ s with pc := upd s.pc t (.submit (.call call) (changes call) []) }, .begin t call)
  | .src, .insert call =>
    if s.sources (source call) then
      some ({ s with pc := upd s.pc t .out }, .ret t call (.res (.err .alreadyExists)))
    else some ({ s with
        sources := fun x => if x = source call then true else s.sources x
        pc := upd s.pc t (.has call) }, .inserted t (source call))
  | .src, .has call =>
    if !s.sources (source call) then
      some ({ s with pc := upd s.pc t .out }, .ret t call (.res (.err .notFound)))
    else if !valid c call then some ({ s with pc := upd s.pc t .out }, .ret t call .panic)
    else some ({ s with pc := upd s.pc t (.submit (.call call) (changes call) []) }, .tau)
  | .src, .remove call =>
    if !s.sources (source call) then
      some ({ s with pc := upd s.pc t .out }, .ret t call (.res (.err .notFound)))
    else some ({ s with
        sources := fun x => if x = source call then false else s.sources x
        pc := upd s.pc t (.ending call) }, .removed t (source call))
  | .eval, .ending call => some ({ s with pc := upd s.pc t .out }, .ret t call (.res .ok))
  | .src, .wHas timed cap evs =>
    if !s.sources (.fd c.notifFd) then some (waitFail s t timed cap .notFound)
    else some ({ s with pc := upd s.pc t (.submit (.rearm timed cap evs)
        (fdChanges c.notifFd (Event.onlyReadable NOTIFY_KEY) .oneshot) []) }, .tau)
  | .change fault, .submit w (ev :: todo) done =>
    if fault = some 0 then none  -- an error is not zero
    else
      let (errno, k) := register c fault s.k ev
      some ({ s with k, pc := upd s.pc t (.submit w todo (done ++ [receipt ev errno])) }, changeObs t ev errno)
  | .kfail e, .submit w _ _ => some (submitted s t w (.err e))
  | .kfail e, .wKev timed cap => some (waitFail s t timed cap e)
  | .eval, .submit w [] done => some (submitted s t w (submitResult done))
  | .notifyCas, .out =>
    if s.notified then some (s, .notifySeen t)
    else some ({ s with
        notified := true
        pc := upd s.pc t (if c.user then .submit .notify [userChange true] [] else .nWrite) }, .notifyBegin t)
  | .write fail, .nWrite =>
    if fail then some ({ s with pc := upd s.pc t .out }, .notified t)
    else some ({ s with
        k := activate { s.k with chan := s.k.chan + 1 } (.read c.notifFd)
        pc := upd s.pc t .out }, .notified t)
  | .wait timed cap, .out =>
    if s.lib.isSome then some (s, .waitBusy t)
    else if cap = 0 then none  -- lib.rs:832-855: the capacity is non-zero
    else some ({ s with lib := some t, pc := upd s.pc t (.wKev timed cap) }, .waitBegin t)
  | .kevent, .wKev timed cap =>
    let (evs, k) := harvest c s.k cap
    if evs ≠ [] ∨ timed = true then
      some ({ s with k, pc := upd s.pc t (if c.user then .wFin evs else .wClear timed cap evs) },
        .deliver t (evs.filter fun e => !c.internal e.filter))
    else none
  | .read fail, .wClear timed cap evs =>
    if s.k.chan > 0 ∧ fail = false then some ({ s with k := { s.k with chan := s.k.chan - 64 } }, .tau)
    else some ({ s with pc := upd s.pc t (.wHas timed cap evs) }, .tau)
  | .finish, .wFin evs =>
    some ({ s with notified := false, lib := none, pc := upd s.pc t .out }, .waitOk t (visible evs).length (visible evs))
  | .cond f v, _ =>
    if c.internal f then none
    else
      let k := { s.k with cond := fun x => if x = f then v else s.k.cond x }
      some ({ s with k := if v.isSome then activate k f else k }, .tau)
  | _, _ => none

end Polling.KqM
