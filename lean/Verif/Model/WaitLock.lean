import Verif.Spec.WaitTrace

/-
lib.rs `Poller::wait` and `Poller::notify` (lib.rs:731-800) run by any number of threads over an arbitrary backend: the lock,
the `notified` flag, and the `Events` buffers.

Each step is one access to shared state or one call of the backend.  The backend is arbitrary: a call may return anything
(or panic), at any time, and leave anything in the buffer it was given (`B` is the type of `sys::Events`).  Time limits are
not modelled here (see Model/Lib.lean and Model/WaitTiming.lean).
-/

namespace Polling.WaitLock
open WaitSpec

/-- `std::sync::Mutex` (lib.rs:436) -/
inductive Lock where
  | free
  | held (t : Tid)
  | poisoned
deriving DecidableEq, Repr

/-- Where a thread is. (lib.rs:731-800) -/
inductive Pc where
  | out
  /-- lib.rs:735: `try_lock` is next -/
  | lock
  /-- lib.rs:738-744: the call of the backend's `wait` is next; the thread holds the lock -/
  | top
  /-- lib.rs:744: inside the backend's `wait` -/
  | backend
  /-- lib.rs:755: the backend's `wait` succeeded; the flag is cleared next -/
  | clear
  /-- lib.rs:750, 758: the lock is released and `wait` returns -/
  | ret (r : Except Err Nat)
  /-- lib.rs:797: the call of the backend's `notify` is next -/
  | notify
deriving Repr

/-- lib.rs:434-438. -/
structure S (B : Type) where
  lock : Lock
  /-- lib.rs:437 `notified` -/
  notified : Bool
  pc : Tid → Pc
  /-- the `Events` each thread passes to `wait` -/
  buf : Tid → B

/-- lib.rs:451-457 `Poller::new`; the buffers have any content. -/
def init {B : Type} (buf : Tid → B) : S B := ⟨.free, false, fun _ => .out, buf⟩

/-- Plumbing of the model, no counterpart in the code. -/
def setPc {B : Type} (s : S B) (t : Tid) (pc : Pc) : S B := { s with pc := fun u => if u = t then pc else s.pc u }
/-- Plumbing of the model, no counterpart in the code. -/
def setBuf {B : Type} (s : S B) (t : Tid) (b : B) : S B := { s with buf := fun u => if u = t then b else s.buf u }

/-- How the backend's `wait` ended. (lib.rs:744) -/
inductive Outcome where
  | ok
  | err (e : Err)
  | panic
deriving DecidableEq, Repr

/-- The steps. (lib.rs:529-800) -/
inductive Act (B : Type) where
  /-- a thread calls `wait` -/
  | waitCall (t : Tid)
  /-- a thread calls `notify` -/
  | notifyCall (t : Tid)
  /-- a thread calls `add`, `modify` or `delete` (lib.rs:529-690: handed to the backend without the lock) -/
  | registerCall (t : Tid)
  /-- the next step of the thread -/
  | go (t : Tid)
  /-- the backend's `wait` ends and leaves this in the buffer -/
  | done (t : Tid) (r : Outcome) (b : B)
  /-- the backend's `notify` ends -/
  | woken (t : Tid) (r : Res)

/-- `len`: lib.rs:919-921 `Events::len`; `clear`: lib.rs:904-906 `Events::clear`. -/
def step {B : Type} (len : B → Nat) (clear : B → B) (s : S B) : Act B → Option (S B × WObs B)
  | .waitCall t =>
    match s.pc t with
    | .out => some (setPc s t .lock, .tau)
    | _ => none
  | .notifyCall t =>
    match s.pc t with
    | .out =>
      -- lib.rs:792-796
      if s.notified = false then some ({ setPc s t .notify with notified := true }, .tau)
      else some (s, .notifyRet t .ok)
    | _ => none
  | .registerCall t =>
    match s.pc t with
    | .out => some (s, .register t)
    | _ => none
  | .go t =>
    match s.pc t with
    | .lock =>
      match s.lock with
      -- lib.rs:735
      | .free => some ({ setPc s t .top with lock := .held t }, .tau)
      -- lib.rs:760-763
      | _ => some (setPc s t .out, .waitRet t (.ok 0) (s.buf t))
    | .top => some (setPc s t .backend, .enter t)
    -- lib.rs:755, 758
    | .clear => some ({ setPc s t (.ret (.ok (len (s.buf t)))) with notified := false }, .tau)
    | .ret r => some ({ setPc s t .out with lock := .free }, .waitRet t r (s.buf t))
    | _ => none
  | .done t r b =>
    match s.pc t with
    | .backend =>
      match r with
      | .ok => some (setBuf (setPc s t .clear) t b, .leave t)
      -- lib.rs:746-748
      | .err .interrupted => some (setBuf (setPc s t .top) t (clear b), .leave t)
      | .err e => some (setBuf (setPc s t (.ret (.error e))) t b, .leave t)
      -- the guard is dropped while panicking: the lock is poisoned
      | .panic => some ({ setBuf (setPc s t .out) t b with lock := .poisoned }, .panicked t)
    | _ => none
  | .woken t r =>
    match s.pc t with
    | .notify => some (setPc s t .out, .notifyRet t r)
    | _ => none

/-- Reachable states with the trace that led to them. (plumbing of the model, no counterpart in the code) -/
inductive Reach {B : Type} (len : B → Nat) (clear : B → B) : S B → List (WObs B) → Prop
  | init (buf) : Reach len clear (init buf) []
  | step {s tr a s' o} : Reach len clear s tr → step len clear s a = some (s', o) → Reach len clear s' (o :: tr)

/-- Run a list of steps. (plumbing of the model, no counterpart in the code) -/
def runActs {B : Type} (len : B → Nat) (clear : B → B) (s : S B) : List (Act B) → Option (S B × List (WObs B))
  | [] => some (s, [])
  | a :: as => (step len clear s a).bind fun r => (runActs len clear r.1 as).map fun q => (q.1, q.2 ++ [r.2])

end Polling.WaitLock
