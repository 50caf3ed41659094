import Verif.Model.Base
import Verif.Spec.Tid

/-
What is observed of the loading of the system functions (afd.rs:173-315), newest first.
-/

namespace Polling.NtdllSpec

/-- Why the functions are needed. -/
inductive Caller where
  /-- `Poller::new`, before anything else (iocp/mod.rs:123) -/
  | new
  /-- an operation with a poller: `Afd::new`, `Afd::poll`, `Afd::cancel` (afd.rs:406, 476, 509) -/
  | use
deriving DecidableEq, Repr

/-- `none`: success -/
abbrev Result := Option Err

inductive Obs where
  | begin (t : Tid) (c : Caller)
  /-- the OS was asked for the module (0) or one of its functions (1..), with this result -/
  | looked (t : Tid) (i : Nat) (r : Result)
  /-- a step inside of the process -/
  | tau
  /-- `NtdllImports::get` returns -/
  | got (t : Tid) (c : Caller) (r : Result)
deriving DecidableEq, Repr

/-- There is a poller: some `new` got the functions. -/
def ready (tr : List Obs) : Prop := ∃ t, Obs.got t .new none ∈ tr

/-- The requests made to the OS, newest first. -/
def lookups : List Obs → List (Nat × Result)
  | [] => []
  | .looked _ i r :: tr => (i, r) :: lookups tr
  | _ :: tr => lookups tr

end Polling.NtdllSpec
