import Verif.Model.Base
import Verif.Spec.Tid

/-! What can be observed of the AFD helper handles of a poller on Windows: who uses which.  A trace is a list of observations,
newest first; helpers are named by numbers that are never used again. -/

namespace Polling.AfdSpec

/-- One observation. -/
inductive AObs where
  /-- thread `t` starts to look for a helper for a new socket -/
  | search (t : Tid)
  /-- the search looked at helper `a` and found it used by `n` sockets -/
  | seen (a : Nat) (n : Nat)
  /-- the search ended: the socket uses the existing helper `a` -/
  | acquired (t : Tid) (a : Nat)
  /-- the search ended: the socket uses the new helper `a` -/
  | created (t : Tid) (a : Nat)
  /-- the search ended: no helper could be made -/
  | failed (t : Tid) (e : Err)
  /-- a socket stopped using helper `a` -/
  | released (a : Nat)
  | tau
deriving DecidableEq, Repr

/-- How many sockets use the helper. -/
def users : List AObs → Nat → Nat
  | [], _ => 0
  | .acquired _ a :: tr, x => users tr x + (if x = a then 1 else 0)
  | .created _ a :: tr, x => users tr x + (if x = a then 1 else 0)
  | .released a :: tr, x => users tr x - (if x = a then 1 else 0)
  | _ :: tr, x => users tr x

/-- What was observed since the last search began. -/
def sinceSearch : List AObs → List AObs
  | [] => []
  | .search _ :: _ => []
  | o :: tr => o :: sinceSearch tr

/-- The observation ends a search. -/
def ends : AObs → Bool
  | .acquired _ _ | .created _ _ | .failed _ _ => true
  | _ => false

end Polling.AfdSpec
