import Verif.Spec.NtdllTrace

/-
afd.rs:173-315 and 535-568: the functions of `ntdll.dll` are looked up once per process, by the first thread that needs them.

`std::sync::Once` is trusted: `call_once` runs its closure in the first thread that calls it; others wait until it is done; then
everybody goes on and sees what the closure wrote.  (It is poisoned if the closure panics; this one does not.)
-/

namespace Polling.Ntdll
open NtdllSpec

/-- afd.rs:225-271: the number of functions imported -/
def FUNCTIONS : Nat := 4

/-- The state of the `Once` (afd.rs:541). -/
inductive Once where
  | fresh
  | running (t : Tid)
  | complete
deriving DecidableEq, Repr

/-- Where a thread is. (afd.rs:294-315, 557-567) -/
inductive Pos where
  | out
  /-- afd.rs:561: `call_once` is next -/
  | once (c : Caller)
  /-- afd.rs:298-305, 190-208: the `i`-th request is next; 0 is `GetModuleHandleW`, the others are `GetProcAddress` -/
  | look (c : Caller) (i : Nat)
  /-- afd.rs:563: the result of the closure is written next -/
  | store (c : Caller) (r : Result)
  /-- afd.rs:564: the closure is done -/
  | leave (c : Caller)
  /-- afd.rs:566 and 307-308: the value is read and its error, if any, is reduced to its kind -/
  | read (c : Caller)
deriving DecidableEq, Repr

/-- The `OnceCell` of afd.rs:294 and the threads. -/
structure S where
  /-- afd.rs:541 -/
  once : Once
  /-- afd.rs:538; `none`: uninitialised memory -/
  value : Option Result
  /-- a poller was made -/
  pollers : Bool
  pc : Tid → Pos

/-- afd.rs:294, 549-554 -/
def init : S := ⟨.fresh, none, false, fun _ => .out⟩

/-- Plumbing of the model, no counterpart in the code. -/
def upd (f : Tid → Pos) (t : Tid) (p : Pos) : Tid → Pos := fun u => if u = t then p else f u

/-- Steps: afd.rs:294-315, 557-567; iocp/mod.rs:121-129. -/
inductive Act where
  /-- `NtdllImports::get` is called; with a poller only if there is one -/
  | call (t : Tid) (c : Caller)
  /-- the next step of a thread; `fault`: the OS refuses -/
  | go (t : Tid) (fault : Option Err)
deriving DecidableEq, Repr

variable (kind : Err → Err)

/-- One step; `none`: not possible.  `kind`: `io::Error::from(e.kind())` (line 308). (afd.rs:294-315, 557-567) -/
def step (s : S) : Act → Option (S × Obs)
  | .call t c =>
    match s.pc t, c with
    | .out, .new => some ({ s with pc := upd s.pc t (.once .new) }, .begin t .new)
    | .out, .use => if s.pollers then some ({ s with pc := upd s.pc t (.once .use) }, .begin t .use) else none
    | _, _ => none
  | .go t fault =>
    match s.pc t with
    | .out => none
    | .once c =>
      match s.once with
      | .fresh => some ({ s with once := .running t, pc := upd s.pc t (.look c 0) }, .tau)
      | .running _ => none
      | .complete => some ({ s with pc := upd s.pc t (.read c) }, .tau)
    | .look c i =>
      match fault with
      | some e => some ({ s with pc := upd s.pc t (.store c (some e)) }, .looked t i (some e))
      | none =>
        if i < FUNCTIONS then some ({ s with pc := upd s.pc t (.look c (i + 1)) }, .looked t i none)
        else some ({ s with pc := upd s.pc t (.store c none) }, .looked t i none)
    | .store c r => some ({ s with value := some r, pc := upd s.pc t (.leave c) }, .tau)
    | .leave c => some ({ s with once := .complete, pc := upd s.pc t (.read c) }, .tau)
    | .read c =>
      match s.value with
      | none => none
      | some r =>
        some ({ s with pollers := s.pollers || (decide (c = .new) && decide (r = none)), pc := upd s.pc t .out },
          .got t c (r.map kind))

/-- States and observations of all runs. (plumbing of the model, no counterpart in the code) -/
inductive Reach : S → List Obs → Prop
  | init : Reach init []
  | step {s tr a s' o} : Reach s tr → step kind s a = some (s', o) → Reach s' (o :: tr)

end Polling.Ntdll
