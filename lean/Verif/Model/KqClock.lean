import Verif.Model.KqM
import Verif.Model.Time

/-
The kqueue poller with the clock: the machine of `KqM` (which lets a `wait` with a timeout go whenever it likes), with the deadline that
the code computes and a `kevent` that does not give up before its time.  Times in nanoseconds.
-/

namespace Polling.KqC
open KqM Kqueue KqSpec

/-- The machine and the clock. (kqueue.rs:229-252, lib.rs:731-764) -/
structure S where
  k : KqM.S
  /-- the clock that `Instant::now()` reads -/
  now : Nat
  /-- the remaining time of this round of the loop was computed (plumbing of the model) -/
  fresh : Bool
  /-- `deadline`, lib.rs:736 -/
  dl : Option Nat
  /-- `timeout` given to the backend, lib.rs:740-741, and by it to `kevent`, kqueue.rs:240 -/
  rem : Option Duration
  /-- when it was computed -/
  since : Nat

/-- What happens.  `tick` lets time pass; `wait` is `KqM`'s, with the timeout.
(lib.rs:731, 736, 740-741; everything else is an action of `KqM`) -/
inductive Act where
  | tick (dt : Nat)
  | wait (t : Tid) (timeout : Option Duration) (cap : Nat)
  | remaining
  | act (t : Tid) (a : KqM.Act)

/-- What is observed: what `KqM` observes, and whether `kevent` gave up because its time was over. (plumbing of the model) -/
abbrev Obs := Option KObs × Bool

/-- `kevent` returns nothing. (OS; kqueue.rs:240) -/
def gaveUp (c : Cfg) (s : KqM.S) (t : Tid) : Bool :=
  match s.pc t with
  | .wKev _ cap => (harvest c s.k cap).1.isEmpty
  | _ => false

/-- `kevent` with a `timespec` may return nothing once that time is over, and never without one. (OS, kevent(2); kqueue.rs:240) -/
def overdue (s : S) : Bool :=
  match s.rem with
  | none => false
  | some r => decide (s.since + r.ns ≤ s.now)

/-- The thread is (back) at the top of the loop. (lib.rs:738, 746-748) -/
def atTop (s : KqM.S) (t : Tid) : Bool :=
  match s.pc t with
  | .wKev _ _ => true
  | _ => false

/-- A step of `KqM`. (plumbing of the model, no counterpart in the code) -/
def inner (c : Cfg) (s : S) (t : Tid) (a : KqM.Act) (f : S → S) (lapse : Bool) : Option (S × Obs) :=
  (KqM.step c s.k t a).map fun r => (f { s with k := r.1 }, (some r.2, lapse))

/-- One step.  The clock is read at the beginning (lib.rs:736) and at the top of every round of the loop of `Poller::wait`
(lib.rs:740-741): after a failure with `Interrupted` of `kevent` or of `reregister` (lib.rs:746-748). -/
def step (c : Cfg) (s : S) : Act → Option (S × Obs)
  | .tick dt => some ({ s with now := s.now + dt }, (none, false))
  | .wait t timeout cap =>
    match KqM.step c s.k t (.wait timeout.isSome cap) with
    | none => none
    | some (k, .waitBegin u) =>
      some ({ k, now := s.now, fresh := false, dl := timeout.bind (instantCheckedAdd unixMaxNs s.now), rem := none, since := s.now }, (some (.waitBegin u), false))
    | some (k, o) => some ({ s with k }, (some o, false))
  | .remaining =>
    if s.fresh then none
    else some ({ s with rem := s.dl.map fun d => saturatingSince d s.now, since := s.now, fresh := true }, (none, false))
  | .act t a =>
    match a with
    | .wait _ _ => none
    | .kevent => if !s.fresh || (gaveUp c s.k t && !overdue s) then none else inner c s t .kevent id (gaveUp c s.k t)
    | .kfail e => inner c s t (.kfail e) (fun s => { s with fresh := s.fresh && !atTop s.k t }) false
    | .eval => inner c s t .eval (fun s => { s with fresh := s.fresh && !atTop s.k t }) false
    | a => inner c s t a id false

/-- A new poller, at any time. (kqueue.rs:51-70) -/
def init (c : Cfg) (cond : Filter → Option Bool) (now : Nat) : S := ⟨KqM.init c cond, now, false, none, none, now⟩

end Polling.KqC
