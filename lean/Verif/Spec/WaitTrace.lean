import Verif.Model.Base
import Verif.Spec.Tid

/-
What can be observed of `wait` and `notify` calls of several threads (C07).  Traces are newest first.
-/

namespace Polling.WaitSpec

/-- One observation; `t` is the thread, `b` the content of its `Events` buffer. -/
inductive WObs (B : Type) where
  /-- a `wait` call entered the wait of the backend -/
  | enter (t : Tid)
  /-- it came back -/
  | leave (t : Tid)
  /-- it panicked there -/
  | panicked (t : Tid)
  /-- a `wait` call returned -/
  | waitRet (t : Tid) (r : Except Err Nat) (b : B)
  /-- the backend was told to wake up the waiting thread -/
  | wake (t : Tid)
  | notifyRet (t : Tid) (r : Res)
  /-- a registration call was handed to the backend and returned -/
  | register (t : Tid)
  | tau

/-- The threads inside the wait of the backend after a trace. -/
def inside {B : Type} : List (WObs B) → List Tid
  | [] => []
  | .enter t :: tr => t :: inside tr
  | .leave t :: tr => (inside tr).erase t
  | .panicked t :: tr => (inside tr).erase t
  | _ :: tr => inside tr

/-- Some thread has panicked inside the wait of the backend. -/
def everPanicked {B : Type} : List (WObs B) → Bool
  | [] => false
  | .panicked _ :: _ => true
  | _ :: tr => everPanicked tr

end Polling.WaitSpec
