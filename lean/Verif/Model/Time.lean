import Verif.Model.Base

/-
Durations, instants and the conversion of timeouts to OS arguments.
-/

namespace Polling

/-- Number of nanoseconds that no `std::time::Duration` reaches (`u64` seconds, `nanos < 10^9`). (std) -/
def durLimit : Nat := 2 ^ 64 * 10 ^ 9

/-- `std::time::Duration`.  Represented by its total number of nanoseconds; `(as_secs, subsec_nanos)` is
quotient and remainder, which is a bijection with the pairs Rust stores. (std; lib.rs:731) -/
structure Duration where
  ns : Nat
  lt : ns < durLimit
deriving DecidableEq, Repr

namespace Duration

/-- `Duration::as_secs` (`u64`). (std; used at iocp/mod.rs:1321-1341) -/
def asSecs (d : Duration) : Nat := d.ns / 10 ^ 9
/-- `Duration::subsec_nanos` (`u32`, below `10^9`). (std; used at iocp/mod.rs:1321-1341) -/
def subsecNanos (d : Duration) : Nat := d.ns % 10 ^ 9
/-- `Duration::as_millis` (`u128`): `secs * 1000 + nanos / 10^6`. (std; used at epoll.rs:204) -/
def asMillis (d : Duration) : Nat := d.asSecs * 1000 + d.subsecNanos / 10 ^ 6
/-- Number of nanoseconds of `Duration::from_millis(ms)` for a `u64` argument
(`secs = ms / 1000`, `nanos = (ms % 1000) * 10^6`). (std; used at epoll.rs:205) -/
def fromMillisNs (ms : Nat) : Nat := ms / 1000 * 10 ^ 9 + ms % 1000 * 10 ^ 6
/-- `Duration::from_secs(0)`. (std; used at epoll.rs:201) -/
def zero : Duration := ⟨0, by decide⟩

end Duration

/-- `i32::MAX` (std; epoll.rs:204-206) -/
def i32Max : Nat := 2 ^ 31 - 1
/-- `u32::MAX`, also the Windows constant `INFINITE` (std; iocp/mod.rs:1321-1341) -/
def u32Max : Nat := 2 ^ 32 - 1
/-- `u64::MAX` (std) -/
def u64Max : Nat := 2 ^ 64 - 1
/-- `i64::MAX` (std; epoll.rs:171-184) -/
def i64Max : Nat := 2 ^ 63 - 1

/-- `try_into()` to an unsigned/signed type with the given maximum, from a non-negative value. (std; used at epoll.rs:204) -/
def tryInto (max v : Nat) : Option Nat := if v ≤ max then some v else none
/-- `saturating_add` at a type with the given maximum (non-negative operands). (std; used at epoll.rs:206) -/
def satAdd (max a b : Nat) : Nat := if a + b ≤ max then a + b else max
/-- `checked_add` / `checked_mul` on `u64`. (std; used at iocp/mod.rs:1321-1341) -/
def checkedU64 (v : Nat) : Option Nat := if v ≤ u64Max then some v else none

/-- epoll.rs:200-211: the timeout argument of `epoll_wait` (`-1` blocks, `0` polls). -/
def epollTimeoutMs (hasTimerFd : Bool) (timeout : Option Duration) : Int :=
  match timeout with
  | none => -1
  | some t =>
    if t.ns = 0 then 0
    else if hasTimerFd then -1
    else
      let ms := (tryInto i32Max t.asMillis).getD i32Max
      let ms := if Duration.fromMillisNs ms < t.ns then satAdd i32Max ms 1 else ms
      (ms : Int)

/-- `x as i64` for a `u64` value: two's complement wrap-around. (std; used at epoll.rs:171-184) -/
def u64AsI64 (x : Nat) : Int := if x < 2 ^ 63 then (x : Int) else (x : Int) - 2 ^ 64

/-- epoll.rs:170-184: the `it_value` given to `timerfd_settime` as (tv_sec, tv_nsec). -/
def timerValue (timeout : Option Duration) : Int × Int :=
  match timeout with
  | none => (0, 0)
  | some t => (u64AsI64 t.asSecs, (t.subsecNanos : Int))

/-- poll.rs:234-245: the timeout argument of `poll`, from the remaining time to the deadline. -/
def pollTimeoutMs (remaining : Option Duration) : Int :=
  match remaining with
  | none => -1
  | some t =>
    let ms := (tryInto u64Max t.asMillis).getD u64Max
    let ms := if Duration.fromMillisNs ms < t.ns then satAdd u64Max ms 1 else ms
    ((tryInto i32Max ms).getD i32Max : Nat)

/-- iocp/mod.rs:1321-1341 `dur2timeout`. -/
def dur2timeout (d : Duration) : Nat :=
  (((checkedU64 (d.asSecs * 1000)).bind fun ms =>
    (checkedU64 (ms + d.subsecNanos / 10 ^ 6))).bind fun ms =>
    (if d.subsecNanos % 10 ^ 6 > 0 then checkedU64 (ms + 1) else some ms)).bind
      (fun x => tryInto u32Max x) |>.getD u32Max

/-- iocp/port.rs:228: the millisecond argument of `GetQueuedCompletionStatusEx`. -/
def iocpTimeoutMs (timeout : Option Duration) : Nat :=
  match timeout with
  | none => u32Max
  | some d => dur2timeout d

/-- `Instant::checked_add`: an instant is a number of nanoseconds; `maxNs` is the largest one the platform
can represent (`i64` seconds on Unix: `2^63 * 10^9 - 1`; `u64` seconds on Windows: `2^64 * 10^9 - 1`).
(std; used at lib.rs:736, poll.rs:213, iocp/mod.rs:431) -/
def instantCheckedAdd (maxNs now : Nat) (d : Duration) : Option Nat :=
  if now + d.ns ≤ maxNs then some (now + d.ns) else none

/-- Largest Unix instant (std `Timespec { tv_sec: i64, tv_nsec }`). (std) -/
def unixMaxNs : Nat := 2 ^ 63 * 10 ^ 9 - 1
/-- Largest Windows instant (std `Instant { t: Duration }`). (std) -/
def windowsMaxNs : Nat := 2 ^ 64 * 10 ^ 9 - 1

/-- `deadline.saturating_duration_since(now)`; the result always fits a `Duration` for representable
deadlines (`min` only records the type's bound). (std; used at lib.rs:740-741, poll.rs:234-245, iocp/mod.rs:452) -/
def saturatingSince (deadline now : Nat) : Duration :=
  ⟨min (deadline - now) (durLimit - 1), by unfold durLimit; omega⟩

end Polling
