import Verif.Model.PollProto
import Verif.Model.Time

/-
The `poll(2)` poller with the clock: the machine of `PollProto` (which lets a `wait` with a timeout go whenever it likes), with the
deadlines that the code computes and a `poll()` that does not give up before its time.  Times in nanoseconds.
-/

namespace Polling.PollC
open PollB PollP

/-- How far a `wait` has come with its deadlines. (plumbing of the model, no counterpart in the code) -/
inductive Stage where
  /-- at the top of the loop, lib.rs:738 -/
  | top
  /-- the remaining time is known, lib.rs:740-741 -/
  | left
  /-- the deadline of the backend is known, poll.rs:213 -/
  | set
deriving DecidableEq, Repr

/-- The machine and the clock. (poll.rs:205-300, lib.rs:731-764) -/
structure S where
  p : PollP.S
  /-- the clock that `Instant::now()` reads -/
  now : Nat
  stage : Stage
  /-- `deadline` of `Poller::wait`, lib.rs:736 -/
  dl : Option Nat
  /-- `timeout` given to the backend, lib.rs:740-741 -/
  rem : Option Duration
  /-- `deadline` of the backend, poll.rs:213 -/
  dl2 : Option Nat
  /-- `timeout_ms`, poll.rs:234-245, as given to `poll()` -/
  ms : Int
  /-- when `timeout_ms` was computed -/
  since : Nat

/-- What happens.  `tick` lets time pass; `wait` is `PollProto`'s `waitBegin`, with the timeout.
(lib.rs:731, 736, 740-741, poll.rs:213; everything else is an action of `PollProto`) -/
inductive Act where
  | tick (dt : Nat)
  | wait (t : Tid) (timeout : Option Duration)
  | remaining
  | deadline
  | act (t : Tid) (a : PollP.Act)

/-- What is observed: what `PollProto` observes, and whether `poll()` gave up because its time was over. (plumbing of the model) -/
abbrev Obs := Option PObs × Bool

/-- `poll()` returns zero. (OS; poll.rs:248) -/
def gaveUp (s : PollP.S) (os : Fd → PollFlags.Flags → PollFlags.Flags) : Bool := (osPoll os s.tbl.pollFds).2 == 0

/-- `poll()` with `timeout_ms` may return zero once the time is over, and never if it is negative. (OS, poll(2); poll.rs:248) -/
def overdue (s : S) : Bool := decide (0 ≤ s.ms) && decide (s.since + s.ms.toNat * 1000000 ≤ s.now)

/-- poll.rs:234-245. -/
def timeoutMs (s : S) : Int := pollTimeoutMs (s.dl2.map fun d => saturatingSince d s.now)

/-- A step of `PollProto`. (plumbing of the model, no counterpart in the code) -/
def inner (c : Cfg) (s : S) (t : Tid) (a : PollP.Act) (f : S → S) (lapse : Bool) : Option (S × Obs) :=
  (PollP.step c s.p t a).map fun r => (f { s with p := r.1 }, (some r.2, lapse))

/-- One step.  The clock is read: at the beginning (lib.rs:736), at the top of every round of the loop of `Poller::wait` (lib.rs:740-741),
on entry to the backend (poll.rs:213) and before every `poll()` (poll.rs:236).  The remaining steps leave it alone. -/
def step (c : Cfg) (s : S) : Act → Option (S × Obs)
  | .tick dt => some ({ s with now := s.now + dt }, (none, false))
  | .wait t timeout => inner c s t (.waitBegin timeout.isSome) (fun s =>
      { s with dl := timeout.bind (instantCheckedAdd unixMaxNs s.now), stage := .top, rem := none, dl2 := none, ms := -1, since := s.now }) false
  | .remaining =>
    if s.stage = .top then some ({ s with rem := s.dl.map fun d => saturatingSince d s.now, stage := .left }, (none, false)) else none
  | .deadline =>
    if s.stage = .left then some ({ s with dl2 := s.rem.bind (instantCheckedAdd unixMaxNs s.now), stage := .set }, (none, false)) else none
  | .act t a =>
    match a with
    | .waitBegin _ => none
    | .waitLock => if s.stage = .set then inner c s t .waitLock id false else none
    | .waitLoad => inner c s t .waitLoad (fun s => { s with ms := timeoutMs s, since := s.now }) false
    | .waitPoll os => if gaveUp s.p os && !overdue s then none else inner c s t (.waitPoll os) id (gaveUp s.p os)
    | .waitFinish => inner c s t .waitFinish (fun s => { s with stage := .top }) false
    | a => inner c s t a id false

/-- A new poller, at any time. (poll.rs:70-89) -/
def init (c : Cfg) (now : Nat) : S := ⟨PollP.init c, now, .top, none, none, none, -1, now⟩

end Polling.PollC
