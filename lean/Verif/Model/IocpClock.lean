import Verif.Model.IocpM
import Verif.Model.Time

/-
The IOCP poller with the clock: the machine of `IocpM` (in which a `wait` with a timeout gives up whenever it likes), with the deadlines
that the code computes.  Nothing is assumed about when `GetQueuedCompletionStatusEx` returns.  Times in nanoseconds.
-/

namespace Polling.IocpC
open IocpM

/-- How far a `wait` has come with its deadlines. (plumbing of the model, no counterpart in the code) -/
inductive Stage where
  /-- at the top of the loop, lib.rs:738 -/
  | top
  /-- the remaining time is known, lib.rs:740-741 -/
  | left
  /-- the deadline of the backend is known, iocp/mod.rs:431 -/
  | set
deriving DecidableEq, Repr

/-- The machine and the clock. (iocp/mod.rs:422-492, lib.rs:731-764) -/
structure S where
  i : IocpM.S
  /-- the clock that `Instant::now()` reads -/
  now : Nat
  stage : Stage
  /-- `deadline` of `Poller::wait`, lib.rs:736 -/
  dl : Option Nat
  /-- `timeout` given to the backend, lib.rs:740-741 -/
  rem : Option Duration
  /-- `deadline` of the backend, iocp/mod.rs:431 -/
  dl2 : Option Nat
  /-- `timeout`, iocp/mod.rs:452, as given to `port.wait` -/
  rem2 : Option Duration

/-- What happens.  `tick` lets time pass; `wait` is `IocpM`'s `waitBegin`, with the timeout.
(lib.rs:731, 736, 740-741, iocp/mod.rs:431; everything else is an action of `IocpM`) -/
inductive Act where
  | tick (dt : Nat)
  | wait (timeout : Option Duration) (cap : Nat)
  | remaining
  | deadline
  | act (a : IocpM.Act)

/-- What is observed: what `IocpM` observes, and whether `wait` gave up because its time was over. (plumbing of the model) -/
abbrev Obs := Option IocpSpec.IObs × Bool

/-- iocp/mod.rs:482-483 `timeout_is_empty`. -/
def timeoutIsEmpty (s : S) : Bool :=
  match s.rem2 with
  | none => false
  | some t => t.asSecs == 0 && t.subsecNanos == 0

/-- iocp/mod.rs:484-486: the loop is left for that reason only. -/
def gaveUp (s : IocpM.S) : IocpM.Act → Bool
  | .decide expired =>
    match s.phase with
    | .feed w [] => !w.notified && w.newEvents == 0 && w.timed && expired
    | _ => false
  | _ => false

/-- lib.rs:738: top of the loop. -/
def atTop : Phase → Bool
  | .top _ _ => true
  | _ => false

/-- After a step of `wait`: the clock is read before `port.wait` (iocp/mod.rs:452); a new round of the loop of `Poller::wait` begins after
an interruption (lib.rs:746-748). -/
def after (s : S) : S :=
  match s.i.phase with
  | .top _ _ => { s with stage := .top }
  | .port _ => { s with rem2 := s.dl2.map fun d => saturatingSince d s.now }
  | _ => s

/-- A step of `IocpM`. (plumbing of the model, no counterpart in the code) -/
def inner (n : Nat) (s : S) (a : IocpM.Act) (f : S → S) (lapse : Bool) : Option (S × Obs) :=
  (IocpM.step n s.i a).map fun r => (f { s with i := r.1 }, (some r.2, lapse))

/-- One step.  The clock is read: at the beginning (lib.rs:736), at the top of every round of the loop of `Poller::wait` (lib.rs:740-741),
on entry to the backend (iocp/mod.rs:431) and before every `port.wait` (iocp/mod.rs:452). -/
def step (n : Nat) (s : S) : Act → Option (S × Obs)
  | .tick dt => some ({ s with now := s.now + dt }, (none, false))
  | .wait timeout cap => inner n s (.waitBegin timeout.isSome cap) (fun s =>
      { s with dl := timeout.bind (instantCheckedAdd windowsMaxNs s.now), stage := .top, rem := none, dl2 := none, rem2 := none }) false
  | .remaining =>
    if s.stage = .top then some ({ s with rem := s.dl.map fun d => saturatingSince d s.now, stage := .left }, (none, false)) else none
  | .deadline =>
    if s.stage = .left then some ({ s with dl2 := s.rem.bind (instantCheckedAdd windowsMaxNs s.now), stage := .set }, (none, false)) else none
  | .act a =>
    match a with
    | .waitBegin _ _ => none
    | .wait fault => if atTop s.i.phase && s.stage != .set then none else inner n s (.wait fault) after false
    | .decide expired => if expired == timeoutIsEmpty s then inner n s (.decide expired) id (gaveUp s.i (.decide expired)) else none
    | a => inner n s a id false

/-- A new poller, at any time. (iocp/mod.rs:121-155) -/
def init (now : Nat) : S := ⟨IocpM.init, now, .top, none, none, none, none⟩

end Polling.IocpC
