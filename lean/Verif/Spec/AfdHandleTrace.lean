import Verif.Spec.AfdTrace

/-! What can be observed of the handles of a process on Windows, as far as the AFD helpers of a poller are concerned.  A trace is a list
of observations, newest first.  The system gives the number of a closed handle to the next one that is opened. -/

namespace Polling.AfdHSpec
open AfdSpec

/-- The number of a handle. -/
abbrev HNo := Nat

/-- One observation. -/
inductive HObs where
  /-- the poller opens a helper; the system calls it `h` -/
  | opened (h : HNo)
  /-- the completion port of the poller gets what is started through `h` -/
  | joined (h : HNo)
  /-- `h` is no longer signalled at each completion -/
  | skips (h : HNo)
  /-- the poller closes handle `h`, whatever it is -/
  | closed (h : HNo)
  /-- the search ended: the socket uses the new helper `a`, which is handle `h` -/
  | made (t : Tid) (a : Nat) (h : HNo)
  /-- the rest of the process opens a handle -/
  | otherOpened (h : HNo)
  /-- the rest of the process closes its handle -/
  | otherClosed (h : HNo)
  /-- an observation about the helpers themselves -/
  | helper (o : AObs)
  | tau
deriving DecidableEq, Repr

/-- What is observed of the helpers. -/
def helpers : List HObs → List AObs
  | [] => []
  | .made t a _ :: tr => .created t a :: helpers tr
  | .helper o :: tr => o :: helpers tr
  | _ :: tr => helpers tr

/-- The handle `h` was opened by the poller and not closed since. -/
def ours : List HObs → HNo → Bool
  | [], _ => false
  | .opened x :: tr, h => if h = x then true else ours tr h
  | .closed x :: tr, h => if h = x then false else ours tr h
  | _ :: tr, h => ours tr h

/-- The handle `h` was opened by the rest of the process and not closed since. -/
def others : List HObs → HNo → Bool
  | [], _ => false
  | .otherOpened x :: tr, h => if h = x then true else others tr h
  | .otherClosed x :: tr, h => if h = x then false else others tr h
  | .closed x :: tr, h => if h = x then false else others tr h
  | _ :: tr, h => others tr h

/-- Since it was opened, `h` was joined to the completion port of the poller. -/
def attached : List HObs → HNo → Bool
  | [], _ => false
  | .opened x :: tr, h => if h = x then false else attached tr h
  | .joined x :: tr, h => if h = x then true else attached tr h
  | _ :: tr, h => attached tr h

/-- Since it was opened, `h` was told not to be signalled. -/
def quiet : List HObs → HNo → Bool
  | [], _ => false
  | .opened x :: tr, h => if h = x then false else quiet tr h
  | .skips x :: tr, h => if h = x then true else quiet tr h
  | _ :: tr, h => quiet tr h

/-- The handle of helper `a`. -/
def handleOf : List HObs → Nat → Option HNo
  | [], _ => none
  | .made _ x h :: tr, a => if a = x then some h else handleOf tr a
  | _ :: tr, a => handleOf tr a

end Polling.AfdHSpec
