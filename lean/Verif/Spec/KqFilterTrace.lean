import Verif.Spec.KqTrace

/-
What users see of the filters for processes and timers of `polling::os::kqueue`, with what they ask for: the operation of a
process and the duration of a timer.  A trace is a list of observations, newest first.
-/

namespace Polling.KqFilterSpec
open Kqueue KqSpec

/-- os/kqueue.rs:188-197 `ProcessOps`. -/
inductive ProcOp where
  | exit
  | fork
  | exec
deriving DecidableEq, Repr

/-- A filter as users write it (os/kqueue.rs:149, 174-183, 261-267).  Durations are in nanoseconds. -/
inductive Ask where
  | signal (sig : Int)
  | process (pid : Nat) (op : ProcOp)
  | timer (id : Nat) (timeout : Nat)
deriving DecidableEq, Repr

/-- What is watched. -/
def Ask.target : Ask → Filter
  | .signal n => .signal n
  | .process p _ => .proc p
  | .timer i _ => .timer i

inductive PObs where
  /-- an observation of the poller -/
  | k (o : KObs)
  /-- the OS accepted to watch a process or a timer, as asked for by a call of `t` -/
  | armed (t : Tid) (x : Ask)
  /-- a process did something -/
  | did (pid : Nat) (op : ProcOp)
  /-- a timer expired -/
  | expired (id : Nat)
  /-- time passed -/
  | tick (d : Nat)
deriving DecidableEq, Repr

/-- Whether the batch has an event of the filter, for which `p` holds. -/
def has (evs : List KEvent) (f : Filter) (p : KEvent → Bool) : Bool := evs.any fun e => e.filter == f && p e

/-- What is asked for a filter: the last accepted request, unless it was taken back or used up. -/
def asks : List PObs → Filter → Option Ask
  | [], _ => none
  | .armed _ x :: tr, f => if f = x.target then some x else asks tr f
  | .k (.disarmed _ g) :: tr, f => if f = g then none else asks tr f
  | .k (.deliver _ evs) :: tr, f => if has evs f (·.flags.oneshot) then none else asks tr f
  | _ :: tr, f => asks tr f

/-- The time since the filter was last armed. -/
def elapsed : List PObs → Filter → Nat
  | [], _ => 0
  | .armed _ x :: tr, f => if f = x.target then 0 else elapsed tr f
  | .tick d :: tr, f => elapsed tr f + d
  | _ :: tr, f => elapsed tr f

/-- The number of events of the filter since it was last armed. -/
def shots : List PObs → Filter → Nat
  | [], _ => 0
  | .armed _ x :: tr, f => if f = x.target then 0 else shots tr f
  | .k (.deliver _ evs) :: tr, f => if has evs f (fun _ => true) then shots tr f + 1 else shots tr f
  | _ :: tr, f => shots tr f

/-- The number of times the timer expired since it was last armed. -/
def expiries : List PObs → Filter → Nat
  | [], _ => 0
  | .armed _ x :: tr, f => if f = x.target then 0 else expiries tr f
  | .expired i :: tr, f => if f = .timer i then expiries tr f + 1 else expiries tr f
  | _ :: tr, f => expiries tr f

/-- Since it is watched, and since its last edge-triggered event, the process did something that was asked for when it did it. -/
def earned : List PObs → Nat → Bool
  | [], _ => false
  | .did p op :: tr, q => (q == p && asks tr (.proc q) == some (.process q op)) || earned tr q
  | .armed _ x :: tr, q => if x.target = .proc q ∧ asks tr (.proc q) = none then false else earned tr q
  | .k (.deliver _ evs) :: tr, q => if has evs (.proc q) (·.flags.clear) then false else earned tr q
  | _ :: tr, q => earned tr q

end Polling.KqFilterSpec
