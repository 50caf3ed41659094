/-
What a program sees that watches the descriptor of a poller with another event loop and calls `wait` when it is readable: `notify` calls
that returned, `wait` calls with their timeouts, and the time that passes.  Independent of any backend.

A history is a list, newest first; times in nanoseconds.
-/

namespace Polling.Spec

inductive Nest where
  /-- a `notify` call returned -/
  | notified
  /-- a `wait` with this timeout began, and no other thread was waiting -/
  | wait (timeout : Option Nat)
  /-- that `wait` returned `Ok`; `empty`: without an event -/
  | back (empty : Bool)
  /-- time passed -/
  | pass (dt : Nat)
deriving DecidableEq, Repr

/-- A `notify` call returned after the last successful `wait` had begun.  `returned`: that `wait` is the next one in the list. -/
def recent (returned : Bool) : List Nest → Bool
  | [] => false
  | .notified :: _ => true
  | .back _ :: l => recent true l
  | .wait _ :: l => if returned then false else recent false l
  | .pass _ :: l => recent returned l

/-- The time of a `wait` with a timeout (not zero) is over, of the last successful one or of one that failed since.
`later`: the time since the newest entry. -/
def overdue (returned : Bool) (later : Nat) : List Nest → Bool
  | [] => false
  | .notified :: l => overdue returned later l
  | .back _ :: l => overdue true later l
  | .wait t :: l => (match t with | none => false | some t => decide (0 < t) && decide (t ≤ later)) ||
      (if returned then false else overdue false later l)
  | .pass dt :: l => overdue returned (later + dt) l

/-- The latest `wait` returned because its time was over: without an event, and no `notify` had returned since the successful `wait`
before had begun. -/
def timedOut : List Nest → Bool
  | [] => false
  | .back empty :: l => empty && !recent false l
  | .wait _ :: _ => false
  | .notified :: l => timedOut l
  | .pass _ :: l => timedOut l

end Polling.Spec
