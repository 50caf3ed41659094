import Verif.Model.Time

/-
The portable layer: /repo/src/lib.rs `Poller` and `Events`, over an arbitrary backend.
-/

namespace Polling

/-- The interface of `sys::Poller`/`sys::Events` as used by lib.rs.  `W` is the state of the backend
together with everything outside the process that it can observe (OS, clock, other threads); the
functions are arbitrary. -/
structure Sys (X : Type) where
  W : Type
  /-- `sys::Events` -/
  Buf : Type
  /-- `Instant::now()` -/
  clock : W → Nat × W
  add : W → Fd → Event X → PollMode → Res × W
  modify : W → Fd → Event X → PollMode → Res × W
  delete : W → Fd → Res × W
  wait : W → Buf → Option Duration → Res × W × Buf
  notify : W → Res × W
  /-- `sys::Events::iter` -/
  iter : Buf → List (Event X)
  /-- `sys::Events::clear` -/
  clear : Buf → Buf
  supportsLevel : Bool
  supportsEdge : Bool

namespace Lib
variable {X : Type}

/-- lib.rs:434-438 `struct Poller`.  `locked` says that *another* thread holds `lock` (or that the lock is
poisoned): this is exactly when `try_lock` fails. -/
structure Poller (sys : Sys X) where
  w : sys.W
  locked : Bool
  notified : Bool

variable {sys : Sys X}

/-- lib.rs:548-561 `add_with_mode`. -/
def addWithMode (p : Poller sys) (source : Fd) (interest : Event X) (mode : PollMode) : Res × Poller sys :=
  if interest.key = NOTIFY_KEY then (.err .invalidInput, p)
  else
    let (r, w) := sys.add p.w source interest mode
    (r, { p with w })

/-- lib.rs:529-531 `add`. -/
def add (p : Poller sys) (source : Fd) (interest : Event X) : Res × Poller sys :=
  addWithMode p source interest .oneshot

/-- lib.rs:653-666 `modify_with_mode`. -/
def modifyWithMode (p : Poller sys) (source : Fd) (interest : Event X) (mode : PollMode) : Res × Poller sys :=
  if interest.key = NOTIFY_KEY then (.err .invalidInput, p)
  else
    let (r, w) := sys.modify p.w source interest mode
    (r, { p with w })

/-- lib.rs:634-636 `modify`. -/
def modify (p : Poller sys) (source : Fd) (interest : Event X) : Res × Poller sys :=
  modifyWithMode p source interest .oneshot

/-- lib.rs:688-690 `delete`. -/
def delete (p : Poller sys) (source : Fd) : Res × Poller sys :=
  let (r, w) := sys.delete p.w source
  (r, { p with w })

/-- lib.rs:788-800 `notify`. -/
def notify (p : Poller sys) : Res × Poller sys :=
  if p.notified = false then
    let (r, w) := sys.notify p.w
    (r, { p with w, notified := true })
  else (.ok, p)

/-- lib.rs:881-883 `Events::iter`. -/
def eventsIter (sys : Sys X) (b : sys.Buf) : List (Event X) :=
  (sys.iter b).filter fun ev => ev.key != NOTIFY_KEY
/-- lib.rs:919-921 `Events::len`. -/
def eventsLen (sys : Sys X) (b : sys.Buf) : Nat := (eventsIter sys b).length
/-- lib.rs:934-936 `Events::is_empty`. -/
def eventsIsEmpty (sys : Sys X) (b : sys.Buf) : Bool := eventsLen sys b == 0

/-- One call of the backend's `wait` made by the loop in lib.rs:738-759 (recorded for the theorems). -/
structure Call (sys : Sys X) where
  /-- value of `Instant::now()` read at lib.rs:741, if it was read -/
  now : Option Nat
  timeout : Option Duration
  bufIn : sys.Buf

/-- Result of `wait`. (lib.rs:731-764) -/
inductive WaitRes where
  | ok (n : Nat)
  | err (e : Err)
deriving DecidableEq, Repr

/-- Outcome of the loop. (lib.rs:731-764) -/
structure WaitOut (sys : Sys X) where
  res : WaitRes
  p : Poller sys
  buf : sys.Buf
  calls : List (Call sys)

/-- lib.rs:738-759, the loop of `wait`, with at most `fuel` iterations (`none`: still retrying). -/
def waitLoop (deadline : Option Nat) : (fuel : Nat) → Poller sys → sys.Buf → List (Call sys) → Option (WaitOut sys)
  | 0, _, _, _ => none
  | fuel + 1, p, buf, calls =>
    -- lib.rs:740-741
    let (now, w) := match deadline with
      | none => (none, p.w)
      | some _ => let (n, w) := sys.clock p.w; (some n, w)
    let timeout : Option Duration := match deadline, now with
      | some d, some n => some (saturatingSince d n)
      | _, _ => none
    let calls := calls ++ [⟨now, timeout, buf⟩]
    -- lib.rs:744
    match sys.wait w buf timeout with
    | (.err e, w, buf) =>
      if e = .interrupted then waitLoop deadline fuel { p with w } (sys.clear buf) calls
      else some ⟨.err e, { p with w }, buf, calls⟩
    | (.ok, w, buf) => some ⟨.ok (eventsLen sys buf), { p with w, notified := false }, buf, calls⟩

/-- lib.rs:731-764 `wait`; `maxNs` is the platform's largest `Instant`. -/
def wait (maxNs fuel : Nat) (p : Poller sys) (buf : sys.Buf) (timeout : Option Duration) : Option (WaitOut sys) :=
  if p.locked then some ⟨.ok 0, p, buf, []⟩
  else
    match timeout with
    | none => waitLoop none fuel p buf []
    | some t =>
      let (now, w) := sys.clock p.w
      waitLoop (instantCheckedAdd maxNs now t) fuel { p with w } buf []

end Lib
end Polling
