import Verif.Model.Lib

/-
The parts of each backend's `wait` that decide how long it blocks, over arbitrary OS primitives.
Everything else a `wait` does (collecting events, notification handling) is left to the primitives here;
it is modelled in the backend machines.
-/

namespace Polling.Timing
open Lib

/-- The OS side of the timing models: an arbitrary world with a clock. (OS; lib.rs:736-744) -/
structure World where
  W : Type
  Buf : Type
  /-- true (monotonic) time of a world state, in nanoseconds; ghost, not readable by the code -/
  time : W → Nat
  /-- `Instant::now()` -/
  clock : W → Nat × W

/-- `deadline.map(|d| d.saturating_duration_since(Instant::now()))`: lib.rs:740-741, poll.rs:234-236,
iocp/mod.rs:452-453.  The clock is read only if there is a deadline. -/
def readRemaining (wd : World) : Option Nat → wd.W → Option Duration × wd.W
  | none, w => (none, w)
  | some d, w => (some (saturatingSince d (wd.clock w).1), (wd.clock w).2)

/-- `timeout.and_then(|t| Instant::now().checked_add(t))`: lib.rs:736, poll.rs:213, iocp/mod.rs:431. -/
def readDeadline (wd : World) (maxNs : Nat) : Option Duration → wd.W → Option Nat × wd.W
  | none, w => (none, w)
  | some t, w => (instantCheckedAdd maxNs (wd.clock w).1 t, (wd.clock w).2)

/-- What a blocking OS call may do: return an error, or return with something to report (an event, a
notification or a spurious wake-up: `busy`), or return because its time limit expired (`expired`).
(OS; epoll.rs:214, kqueue.rs:240, port.rs:116, poll.rs:248, iocp/mod.rs:455) -/
inductive Ret where
  | err (e : Err)
  | busy
  | expired
deriving DecidableEq, Repr

/-- epoll.rs:159-229 `wait`, timing part: `settime` is `timerfd_settime` + re-arming (only with a timerfd),
`epollWait` is `epoll_wait` with the millisecond argument, `finish` is lines 223-228 (clear and re-arm). -/
def epollWait (wd : World) (hasTimerFd : Bool) (settime : wd.W → Int × Int → Res × wd.W)
    (epoll : wd.W → wd.Buf → Int → Ret × wd.W × wd.Buf) (finish : wd.W → Res × wd.W)
    (w : wd.W) (buf : wd.Buf) (timeout : Option Duration) : Ret × wd.W × wd.Buf :=
  let (r, w) := if hasTimerFd then settime w (timerValue timeout) else (Res.ok, w)
  match r with
  | .err e => (.err e, w, buf)
  | .ok =>
    match epoll w buf (epollTimeoutMs hasTimerFd timeout) with
    | (.err e, w, buf) => (.err e, w, buf)
    | (ret, w, buf) =>
      match finish w with
      | (.err e, w) => (.err e, w, buf)
      | (.ok, w) => (ret, w, buf)

/-- kqueue.rs:229-252 and port.rs:107-134 `wait`, timing part: the `Duration` is handed to the OS call
unchanged. `finish` is kqueue.rs:249. -/
def directWait (wd : World) (sysWait : wd.W → wd.Buf → Option Duration → Ret × wd.W × wd.Buf)
    (finish : wd.W → Res × wd.W) (w : wd.W) (buf : wd.Buf) (timeout : Option Duration) :
    Ret × wd.W × wd.Buf :=
  match sysWait w buf timeout with
  | (.err e, w, buf) => (.err e, w, buf)
  | (ret, w, buf) =>
    match finish w with
    | (.err e, w) => (.err e, w, buf)
    | (.ok, w) => (ret, w, buf)

/-- Result of one round of the outer loop of poll.rs before polling (lines 221-230):
return at once, or go on to poll. -/
inductive Pre where
  | ret (r : Ret)
  | poll
deriving DecidableEq, Repr

/-- poll.rs:220-297 `wait`, the outer loop.  `pre` is the inner loop (notification check and waiting for
operations), `poll` is `poll(2)` with the millisecond argument, `again` is the test of line 257
(`continue` if only an operation woke us); `fuel` bounds the number of rounds. -/
def pollLoop (wd : World) (pre : wd.W → Pre × wd.W) (poll : wd.W → wd.Buf → Int → Ret × wd.W × wd.Buf)
    (again : wd.W → Bool × wd.W) (deadline : Option Nat) :
    Nat → wd.W → wd.Buf → Option (Ret × wd.W × wd.Buf)
  | 0, _, _ => none
  | fuel + 1, w, buf =>
    match pre w with
    | (.ret r, w) => some (r, w, buf)
    | (.poll, w) =>
      match poll (readRemaining wd deadline w).2 buf (pollTimeoutMs (readRemaining wd deadline w).1) with
      | (.err e, w, buf) => some (.err e, w, buf)
      | (.expired, w, buf) => some (.expired, w, buf)
      | (.busy, w, buf) =>
        match again w with
        | (true, w) => pollLoop wd pre poll again deadline fuel w buf
        | (false, w) => some (.busy, w, buf)

/-- poll.rs:205-300 `wait`: compute the deadline (line 213), then loop. -/
def pollWait (wd : World) (pre : wd.W → Pre × wd.W) (poll : wd.W → wd.Buf → Int → Ret × wd.W × wd.Buf)
    (again : wd.W → Bool × wd.W) (maxNs fuel : Nat) (w : wd.W) (buf : wd.Buf) (timeout : Option Duration) :
    Option (Ret × wd.W × wd.Buf) :=
  pollLoop wd pre poll again (readDeadline wd maxNs timeout w).1 fuel (readDeadline wd maxNs timeout w).2 buf

/-- Result of processing the completions of one round of the IOCP loop (iocp/mod.rs:461-479). -/
inductive Proc where
  | err (e : Err)
  | ok (notified : Bool) (newEvents : Nat)
deriving DecidableEq, Repr

/-- iocp/mod.rs:482-483: `timeout.map(|t| t.as_secs() == 0 && t.subsec_nanos() == 0).unwrap_or(false)`. -/
def timeoutIsEmpty : Option Duration → Bool
  | none => false
  | some t => t.asSecs == 0 && t.subsecNanos == 0

/-- iocp/mod.rs:435-491, the loop of `wait`. `drain` is lines 439-449 (polling flag and update queue),
`portWait` is iocp/port.rs:219-255 with the millisecond argument (`expired` covers the timeout error that is
turned into `Ok(0)`), `process` feeds the completions (a `portWait` that expired leaves none). -/
def iocpLoop (wd : World) (drain : wd.W → Res × wd.W)
    (portWait : wd.W → wd.Buf → Nat → Ret × wd.W × wd.Buf)
    (process : wd.W → wd.Buf → Proc × wd.W × wd.Buf) (deadline : Option Nat) :
    Nat → Bool → wd.W → wd.Buf → Option (Ret × wd.W × wd.Buf)
  | 0, _, _, _ => none
  | fuel + 1, notified, w, buf =>
    match drain w with
    | (.err e, w) => some (.err e, w, buf)
    | (.ok, w) =>
      let timeout := (readRemaining wd deadline w).1
      match portWait (readRemaining wd deadline w).2 buf (iocpTimeoutMs timeout) with
      | (.err e, w, buf) => some (.err e, w, buf)
      | (_, w, buf) =>
        match process w buf with
        | (.err e, w, buf) => some (.err e, w, buf)
        | (.ok n new, w, buf) =>
          let notified := notified || n
          if notified || decide (new > 0) then some (.busy, w, buf)
          else if timeoutIsEmpty timeout then some (.expired, w, buf)
          else iocpLoop wd drain portWait process deadline fuel notified w buf

/-- iocp/mod.rs:422-492 `wait`: compute the deadline (line 431), then loop. -/
def iocpWait (wd : World) (drain : wd.W → Res × wd.W)
    (portWait : wd.W → wd.Buf → Nat → Ret × wd.W × wd.Buf)
    (process : wd.W → wd.Buf → Proc × wd.W × wd.Buf) (maxNs fuel : Nat)
    (w : wd.W) (buf : wd.Buf) (timeout : Option Duration) : Option (Ret × wd.W × wd.Buf) :=
  iocpLoop wd drain portWait process (readDeadline wd maxNs timeout w).1 fuel false
    (readDeadline wd maxNs timeout w).2 buf

/-- lib.rs:738-759 over a timing backend: as `Lib.waitLoop`, keeping the reason of the return. -/
def libLoop (wd : World) (sysWait : wd.W → wd.Buf → Option Duration → Option (Ret × wd.W × wd.Buf))
    (clear : wd.Buf → wd.Buf) (deadline : Option Nat) :
    Nat → wd.W → wd.Buf → Option (Ret × wd.W × wd.Buf)
  | 0, _, _ => none
  | fuel + 1, w, buf =>
    match sysWait (readRemaining wd deadline w).2 buf (readRemaining wd deadline w).1 with
    | none => none
    | some (.err e, w, buf) =>
      if e = .interrupted then libLoop wd sysWait clear deadline fuel w (clear buf)
      else some (.err e, w, buf)
    | some r => some r

/-- lib.rs:731-760 `wait` (lock acquired) over a timing backend. -/
def libWait (wd : World) (sysWait : wd.W → wd.Buf → Option Duration → Option (Ret × wd.W × wd.Buf))
    (clear : wd.Buf → wd.Buf) (maxNs fuel : Nat) (w : wd.W) (buf : wd.Buf) (timeout : Option Duration) :
    Option (Ret × wd.W × wd.Buf) :=
  libLoop wd sysWait clear (readDeadline wd maxNs timeout w).1 fuel (readDeadline wd maxNs timeout w).2 buf

end Polling.Timing
