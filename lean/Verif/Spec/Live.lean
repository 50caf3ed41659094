import Verif.Spec.Trace
import Verif.Spec.Flags
import Verif.Spec.KqTrace
import Verif.Spec.IocpTrace
import Verif.Spec.PollTrace

/-
When a program that uses only the portable interface may expect an event, in terms of what it sees: its registration calls begin
and return, `wait` returns events (of which the keys matter here) or fails.  The same for all backends.

A trace is a list of observations, newest first.
-/

namespace Polling.Live

/-- `add` or `modify` (with the interest), or `delete`. -/
inductive Call where
  | set (fd : Fd) (key : Key) (readable writable : Bool) (mode : PollMode)
  | delete (fd : Fd)
deriving DecidableEq, Repr

def Call.fd : Call → Fd
  | .set fd _ _ _ _ | .delete fd => fd

inductive Obs where
  | begin (t : Tid) (call : Call)
  /-- the thread's call returned -/
  | ret (t : Tid) (ok : Bool)
  /-- a `wait` returned events with these keys -/
  | waitOk (keys : List Key)
  | waitErr
deriving DecidableEq, Repr

/-- How the first call of `t` to return ended: oldest observation first, that is, last in the list. -/
def outcome (t : Tid) : List Obs → Option Bool
  | [] => none
  | o :: l =>
    match outcome t l with
    | some b => some b
    | none =>
      match o with
      | .ret u ok => if u = t then some ok else none
      | _ => none

/-- The thread's call in progress. -/
def calling : List Obs → Tid → Option Call
  | [], _ => none
  | .begin u call :: tr, t => if u = t then some call else calling tr t
  | .ret u _ :: tr, t => if u = t then none else calling tr t
  | _ :: tr, t => calling tr t

/-- The program waits for the source, and has not been told yet: its latest call for the source was an `add` or `modify` with
this key, interest and mode, it succeeded, and it did not overlap with other calls for the source; and, in one-shot mode, since
that call began no `wait` has returned an event with the key, or failed. -/
def Asked (tr : List Obs) (fd : Fd) (key : Key) (readable writable : Bool) (mode : PollMode) : Prop :=
  ∃ l2 t l1, tr = l2 ++ .begin t (.set fd key readable writable mode) :: l1 ∧ outcome t l2 = some true ∧
    (∀ u call, .begin u call ∈ l2 → call.fd ≠ fd) ∧ (∀ u call, calling l1 u = some call → call.fd ≠ fd) ∧
    (mode = .level ∨ mode = .oneshot ∧ .waitErr ∉ l2 ∧ ∀ keys, .waitOk keys ∈ l2 → key ∉ keys)

/-- A condition (by number, `Spec/Flags.lean`) of which this interest is told: readability and writability if asked for, error and
hang-up in any case. -/
def Wants (readable writable : Bool) (i : Nat) : Prop :=
  (readable = true ∧ (i = Spec.cIn ∨ i = Spec.cPri)) ∨ (writable = true ∧ i = Spec.cOut) ∨ i = Spec.cErr ∨ i = Spec.cHup

/-! The visible part of the observations of each backend's machine. -/

/-- epoll and event ports: a registration call is one system call, so it begins and returns at once.  Calls that fail are left
out: they change nothing. -/
def ofObs {X : Type} : Spec.Obs X → List Obs
  | .reg fd ev mode => [.ret 0 true, .begin 0 (.set fd ev.key ev.readable ev.writable mode)]
  | .unreg fd => [.ret 0 true, .begin 0 (.delete fd)]
  | .waitOk _ evs => [.waitOk (evs.map Event.key)]
  | .waitErr _ => [.waitErr]
  | _ => []

/-- kqueue.  The filters of the extension are not sources of the portable interface. -/
def ofKObs : KqSpec.KObs → List Obs
  | .begin t (.add fd ev mode) | .begin t (.modify fd ev mode) => [.begin t (.set fd ev.key ev.readable ev.writable mode)]
  | .begin t (.delete fd) => [.begin t (.delete fd)]
  | .ret t _ r => [.ret t (r == .res .ok)]
  | .waitOk _ _ evs => [.waitOk (evs.map Event.key)]
  | .waitErr _ _ => [.waitErr]
  | _ => []

/-- IOCP.  Waitable handles are not sources of the portable interface. -/
def ofIObs : IocpSpec.IObs → List Obs
  | .begin t (.add true fd ev mode) | .begin t (.modify true fd ev mode) => [.begin t (.set fd ev.key ev.readable ev.writable mode)]
  | .begin t (.delete true fd) => [.begin t (.delete fd)]
  | .ret t _ r | .deleted t _ _ _ r => [.ret t (r == .ok)]
  | .waitOk _ evs => [.waitOk (evs.map Event.key)]
  | .waitErr _ => [.waitErr]
  | _ => []

/-- poll. -/
def ofPObs : PollP.PObs → List Obs
  | .callBegin t (.add fd ev mode) | .callBegin t (.modify fd ev mode) => [.begin t (.set fd ev.key ev.readable ev.writable mode)]
  | .callBegin t (.delete fd) => [.begin t (.delete fd)]
  | .callEnd t r => [.ret t (r == .ok)]
  | .waitOk _ _ evs => [.waitOk (evs.map Event.key)]
  | .waitErr _ _ => [.waitErr]
  | _ => []

end Polling.Live
