import Verif.Model.PollTable
import Verif.Spec.Tid

/-
The poll(2) backend (poll.rs) under the portable layer (lib.rs `wait`, `notify`), with any number of threads, as a
transition system.  Every atomic operation, system call, lock operation and condition variable operation of the code
is one step of one thread, so all interleavings are covered.

The descriptor table, the registration calls on it and the collection of the events are those of
`Model/PollTable.lean`.

Simplifications: time is abstracted - a `wait` with a timeout may give up polling at any moment, one without never does
(the timeout arithmetic is treated in C09-C11); calls that are refused before they touch shared state (reserved key,
the poller's own descriptors; C01 and C13) are left out.
-/

namespace Polling.PollP
open PollB PollFlags PollSpec

/-- The wake-up channel: the pipe of poll.rs:631-737, or the eventfd of poll.rs:740-830 (`.eventfd`: reading zero fails;
`.eventfdZero`: reading zero succeeds, as on the ESP-IDF, poll.rs:768-769).  On HermitOS and, with the pipe, on the PS Vita a
read of the empty channel may block instead: `Model/PollBlocking.lean`. -/
inductive Chan where
  | pipe | eventfd | eventfdZero
deriving DecidableEq, Repr

/-- What kind of poller: poll.rs:70-89, 631-830; the number of threads. -/
structure Cfg where
  n : NotifyFds
  chan : Chan
  /-- number of threads using the poller (arbitrary) -/
  threads : Nat

/-- Result of poll.rs `wait`, with the events it left in the buffer. -/
inductive WRes where
  | ok (evs : List (Event EventExtra))
  | err (e : Err)
deriving DecidableEq, Repr

/-- Where a thread is: the next thing it does. (poll.rs:102-339, 631-830; lib.rs:731-800) -/
inductive Pc where
  /-- not inside a call -/
  | out
  /-- lib.rs:797 after the successful compare-exchange; next: `swap` of poll.rs:310 -/
  | nSwap
  /-- poll.rs:311 write to the channel -/
  | nWrite
  /-- poll.rs:312 `notify_one` -/
  | nCv
  /-- poll.rs:323: counter incremented; next: write to the channel -/
  | mWrite (op : Op)
  /-- poll.rs:325: next: lock the table -/
  | mLock (op : Op) (sent : Bool)
  /-- poll.rs:329: table locked, a byte was sent; next: pop one -/
  | mPop (op : Op)
  /-- poll.rs:332: table locked; next: the change -/
  | mApply (op : Op)
  /-- poll.rs:334: table locked; next: decrement the counter -/
  | mDec (r : Res)
  /-- poll.rs:335: table locked, the counter was 1; next: `notify_one` -/
  | mCv (r : Res)
  /-- poll.rs:338-339: next: unlock and return -/
  | mUnlock (r : Res)
  /-- poll.rs:215-217: next: lock the table -/
  | wLock (timed : Bool)
  /-- poll.rs:222: table locked; next: `swap` -/
  | wSwap (timed : Bool)
  /-- poll.rs:225: table locked, was notified; next: pop one and return -/
  | wPop (timed : Bool)
  /-- poll.rs:226: table locked; next: load the counter -/
  | wLoad (timed : Bool)
  /-- poll.rs:230: table locked, the counter was not 0; next: release and sleep -/
  | wPark (timed : Bool)
  /-- poll.rs:230: sleeping on the condition variable -/
  | wSleep (timed : Bool)
  /-- poll.rs:230: woken; next: lock the table again -/
  | wRelock (timed : Bool)
  /-- poll.rs:248: table locked; in `poll()` -/
  | wPoll (timed : Bool)
  /-- poll.rs:254-256: table locked, `poll()` returned the results `os` and a wake-up; next: read the channel -/
  | wPopAll (timed : Bool) (os : Fd → Flags → Flags)
  /-- poll.rs:261: table locked; next: `swap`, and decide -/
  | wSwap2 (timed : Bool) (os : Fd → Flags → Flags)
  /-- poll.rs:299: next: unlock and return to lib.rs -/
  | wUnlock (timed : Bool) (r : WRes)
  /-- lib.rs:744-758: next: handle the result -/
  | wFinish (timed : Bool) (r : WRes)

/-- The whole state. (poll.rs:23-55; lib.rs:434-438) -/
structure S where
  /-- contents of `fds` -/
  tbl : Fds
  /-- holder of the mutex `fds` -/
  mtx : Option Tid
  /-- holder of lib.rs `lock` -/
  lib : Option Tid
  /-- lib.rs `notified` -/
  libNotified : Bool
  /-- poll.rs `notified` -/
  notified : Bool
  /-- poll.rs `waiting_operations` -/
  ops : Nat
  /-- bytes in the pipe / value of the eventfd -/
  chan : Nat
  pc : Tid → Pc

/-- What is observed of a step. (plumbing of the model, no counterpart in the code) -/
inductive PObs where
  /-- a registration call began -/
  | callBegin (t : Tid) (op : Op)
  /-- the table was changed by the call -/
  | applied (t : Tid) (op : Op) (r : Res)
  /-- a registration call returned -/
  | callEnd (t : Tid) (r : Res)
  /-- `poll()` is called with this table -/
  | polled (t : Tid) (table : List PollFd)
  /-- `poll()` failed -/
  | pollFailed (t : Tid)
  /-- a `wait` evaluated the results of `poll()` -/
  | round (t : Tid) (os : Fd → Flags → Flags) (order : List Fd) (notified : Bool) (out : Out)
  /-- a `notify` call has set lib.rs `notified` -/
  | notifyBegin (t : Tid)
  /-- a `notify` call found lib.rs `notified` set and returned at once -/
  | notifiedAtOnce (t : Tid)
  /-- a `notify` call returned -/
  | notified (t : Tid)
  /-- a `notify` call failed -/
  | notifyErr (t : Tid)
  | waitBegin (t : Tid)
  | waitOk (t : Tid) (n : Nat) (evs : List (Event EventExtra))
  | waitErr (t : Tid) (e : Err)
  /-- a `wait` returned `Ok(0)` because another thread is waiting -/
  | waitBusy (t : Tid)
  | tau

/-- Steps of a thread. (poll.rs:102-339; lib.rs:731-800) -/
inductive Act where
  /-- lib.rs:792-796 -/
  | notifyCas
  /-- poll.rs:310 -/
  | notifySwap
  /-- poll.rs:311; `ok`: the write succeeds -/
  | notifyWrite (ok : Bool)
  /-- poll.rs:312 -/
  | notifyCv
  /-- poll.rs:320 -/
  | callBegin (op : Op)
  /-- poll.rs:323 -/
  | callWrite (ok : Bool)
  /-- poll.rs:325 -/
  | callLock
  /-- poll.rs:328-330 -/
  | callPop
  /-- poll.rs:332 -/
  | callApply
  /-- poll.rs:334 -/
  | callDec
  /-- poll.rs:335 -/
  | callCv
  /-- poll.rs:338 -/
  | callUnlock
  /-- lib.rs:735 -/
  | waitBegin (timed : Bool)
  /-- lib.rs:735, 760 -/
  | waitBusy
  /-- poll.rs:214-217 -/
  | waitLock
  /-- poll.rs:222 -/
  | waitSwap
  /-- poll.rs:225 -/
  | waitPop
  /-- poll.rs:226 -/
  | waitLoad
  /-- poll.rs:230, first half -/
  | waitPark
  /-- poll.rs:230: a spurious wake-up (allowed by `Condvar::wait`) -/
  | waitSpurious
  /-- poll.rs:230, second half -/
  | waitRelock
  /-- poll.rs:248: `poll()` returns these results -/
  | waitPoll (os : Fd → Flags → Flags)
  /-- poll.rs:248: `poll()` fails -/
  | waitPollFail (e : Err)
  /-- poll.rs:255, 726-730, 819-823: one read -/
  | waitPopAll
  /-- poll.rs:261-296; `order`: iteration order of the hash map -/
  | waitSwap2 (order : List Fd)
  /-- poll.rs:299 -/
  | waitUnlock
  /-- lib.rs:744-758 -/
  | waitFinish

/-- Thread `t` moves to `p`. (plumbing of the model, no counterpart in the code) -/
def upd (pc : Tid → Pc) (t : Tid) (p : Pc) : Tid → Pc := fun u => if u = t then p else pc u

/-- `Condvar::notify_one` on `operations_complete`: a sleeping thread wakes up.  (There is at most one: only the
holder of lib.rs `lock` sleeps here, `C34.poll_one_waiter`.) -/
def wake (pc : Tid → Pc) : Tid → Pc := fun u =>
  match pc u with
  | .wSleep timed => .wRelock timed
  | p => p

/-- poll.rs:701-723, 810-814 `pop_notification`: whether the read succeeds, and what is left. -/
def pop (kind : Chan) (chan : Nat) : Bool × Nat :=
  match kind with
  | .pipe => (decide (chan > 0), chan - 1)
  | .eventfd => (decide (chan > 0), 0)
  | .eventfdZero => (true, 0)

/-- poll.rs:726-730, 819-823: one read of `pop_all_notifications`: whether to read again, and what is left. -/
def popAll (kind : Chan) (chan : Nat) : Bool × Nat :=
  match kind with
  | .pipe => (decide (chan > 0), chan - 64)
  | .eventfd | .eventfdZero => (false, 0)

/-- The event buffer as seen through lib.rs:881-883 `Events::iter`. -/
def visible (evs : List (Event EventExtra)) : List (Event EventExtra) := evs.filter fun e => e.key != NOTIFY_KEY

/-- The call is not refused before it touches shared state (lib.rs:554, poll.rs:103, 142, 176). -/
def acceptable (n : NotifyFds) : Op → Bool
  | .add fd ev _ | .modify fd ev _ => ev.key != NOTIFY_KEY && !n.hasFd fd
  | .delete fd => !n.hasFd fd

/-- The effect of a step of thread `t` and what is observed; `none`: not possible. (poll.rs:102-339, 631-830; lib.rs:731-800) -/
def step (c : Cfg) (s : S) (t : Tid) (a : Act) : Option (S × PObs) :=
  if t < c.threads then
    match a, s.pc t with
    | .notifyCas, .out =>
      if s.libNotified then some (s, .notifiedAtOnce t)
      else some ({ s with libNotified := true, pc := upd s.pc t .nSwap }, .notifyBegin t)
    | .notifySwap, .nSwap =>
      if s.notified then some ({ s with pc := upd s.pc t .out }, .notified t)
      else some ({ s with notified := true, pc := upd s.pc t .nWrite }, .tau)
    | .notifyWrite ok, .nWrite =>
      if ok then some ({ s with chan := s.chan + 1, pc := upd s.pc t .nCv }, .tau)
      else some ({ s with pc := upd s.pc t .out }, .notifyErr t)
    | .notifyCv, .nCv => some ({ s with pc := wake (upd s.pc t .out) }, .notified t)
    | .callBegin op, .out =>
      if acceptable c.n op then some ({ s with ops := s.ops + 1, pc := upd s.pc t (.mWrite op) }, .callBegin t op)
      else none
    | .callWrite ok, .mWrite op =>
      if ok then some ({ s with chan := s.chan + 1, pc := upd s.pc t (.mLock op true) }, .tau)
      else some ({ s with pc := upd s.pc t (.mLock op false) }, .tau)
    | .callLock, .mLock op sent =>
      if s.mtx = none then
        some ({ s with mtx := some t, pc := upd s.pc t (if sent then .mPop op else .mApply op) }, .tau)
      else none
    | .callPop, .mPop op => some ({ s with chan := (pop c.chan s.chan).2, pc := upd s.pc t (.mApply op) }, .tau)
    | .callApply, .mApply op =>
      match call c.n s.tbl op with
      | none => none  -- a panic; excluded by `C13`
      | some (r, tbl) => some ({ s with tbl, pc := upd s.pc t (.mDec r) }, .applied t op r)
    | .callDec, .mDec r =>
      some ({ s with ops := s.ops - 1, pc := upd s.pc t (if s.ops = 1 then .mCv r else .mUnlock r) }, .tau)
    | .callCv, .mCv r => some ({ s with pc := wake (upd s.pc t (.mUnlock r)) }, .tau)
    | .callUnlock, .mUnlock r => some ({ s with mtx := none, pc := upd s.pc t .out }, .callEnd t r)
    | .waitBegin timed, .out =>
      if s.lib = none then some ({ s with lib := some t, pc := upd s.pc t (.wLock timed) }, .waitBegin t) else none
    | .waitBusy, .out => if s.lib = none then none else some (s, .waitBusy t)
    | .waitLock, .wLock timed =>
      if s.mtx = none then some ({ s with mtx := some t, pc := upd s.pc t (.wSwap timed) }, .tau) else none
    | .waitSwap, .wSwap timed =>
      some ({ s with notified := false, pc := upd s.pc t (if s.notified then .wPop timed else .wLoad timed) }, .tau)
    | .waitPop, .wPop timed =>
      some ({ s with chan := (pop c.chan s.chan).2,
                     pc := upd s.pc t (.wUnlock timed (if (pop c.chan s.chan).1 then .ok [] else .err .wouldBlock)) }, .tau)
    | .waitLoad, .wLoad timed =>
      if s.ops = 0 then some ({ s with pc := upd s.pc t (.wPoll timed) }, .polled t s.tbl.pollFds)
      else some ({ s with pc := upd s.pc t (.wPark timed) }, .tau)
    | .waitPark, .wPark timed => some ({ s with mtx := none, pc := upd s.pc t (.wSleep timed) }, .tau)
    | .waitSpurious, .wSleep timed => some ({ s with pc := upd s.pc t (.wRelock timed) }, .tau)
    | .waitRelock, .wRelock timed =>
      if s.mtx = none then some ({ s with mtx := some t, pc := upd s.pc t (.wSwap timed) }, .tau) else none
    | .waitPoll os, .wPoll timed =>
      -- the channel is ready iff it is not empty; `poll()` returns if something is ready or the time is over
      if decide (os c.n.readFd c.n.flags ≠ 0#16) = decide (s.chan > 0) ∧ ((osPoll os s.tbl.pollFds).2 > 0 ∨ timed = true) then
        some ({ s with pc := upd s.pc t (if s.chan > 0 then .wPopAll timed os else .wSwap2 timed os) }, .tau)
      else none
    | .waitPollFail e, .wPoll timed => some ({ s with pc := upd s.pc t (.wUnlock timed (.err e)) }, .pollFailed t)
    | .waitPopAll, .wPopAll timed os =>
      some ({ s with chan := (popAll c.chan s.chan).2,
                     pc := upd s.pc t (if (popAll c.chan s.chan).1 then .wPopAll timed os else .wSwap2 timed os) }, .tau)
    | .waitSwap2 order, .wSwap2 timed os =>
      if order.isPerm (s.tbl.pollFds.tail.map PollFd.fd) then
        match round os order s.notified s.tbl with
        | none => none  -- a panic; excluded by `C13`
        | some (tbl, .again) => some ({ s with tbl, notified := false, pc := upd s.pc t (.wSwap timed) },
            .round t os order s.notified .again)
        | some (tbl, .done evs) => some ({ s with tbl, notified := false, pc := upd s.pc t (.wUnlock timed (.ok evs)) },
            .round t os order s.notified (.events evs))
      else none
    | .waitUnlock, .wUnlock timed r => some ({ s with mtx := none, pc := upd s.pc t (.wFinish timed r) }, .tau)
    | .waitFinish, .wFinish timed r =>
      match r with
      | .ok evs => some ({ s with libNotified := false, lib := none, pc := upd s.pc t .out },
          .waitOk t (visible evs).length (visible evs))
      | .err e =>
        if e = .interrupted then some ({ s with pc := upd s.pc t (.wLock timed) }, .tau)
        else some ({ s with lib := none, pc := upd s.pc t .out }, .waitErr t e)
    | _, _ => none
  else none

/-- poll.rs:70-89 `Poller::new`. -/
def init (c : Cfg) : S := ⟨Fds.init c.n, none, none, false, false, 0, 0, fun _ => .out⟩

/-- Reachable states, by steps that satisfy `P`, with the observations (newest first).
(plumbing of the model, no counterpart in the code) -/
inductive Reach (c : Cfg) (P : Act → Prop) : S → List PObs → Prop
  | init : Reach c P (init c) []
  | step {s tr t a s' o} : Reach c P s tr → P a → step c s t a = some (s', o) → Reach c P s' (o :: tr)

/-- All steps. (plumbing of the model, no counterpart in the code) -/
def Any : Act → Prop := fun _ => True

/-- Writing to the channel does not fail (it does not block either, see C35). (OS; poll.rs:694, 803) -/
def WritesWork : Act → Prop
  | .notifyWrite ok | .callWrite ok => ok = true
  | _ => True

/-- Run a list of steps. (plumbing of the model, no counterpart in the code) -/
def runActs (c : Cfg) (s : S) : List (Tid × Act) → Option (S × List PObs)
  | [] => some (s, [])
  | (t, a) :: as => (step c s t a).bind fun r => (runActs c r.1 as).map fun q => (q.1, q.2 ++ [r.2])

end Polling.PollP
