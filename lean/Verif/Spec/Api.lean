import Verif.Model.Base
import Verif.Spec.Tid

/-
What a program that uses only the portable interface sees of a poller, and what it may rely on.  The same for all backends.

A trace is a list of observations, newest first: calls begin and return, `wait` returns events.  Nothing else is visible.
-/

namespace Polling.Api

/-- A call that concerns a source: `add` or `modify` (with the key, and whether the mode is one-shot), or `delete`. -/
inductive Call where
  | set (fd : Fd) (key : Key) (oneshot : Bool)
  | delete (fd : Fd)
deriving DecidableEq, Repr

def Call.fd : Call → Fd
  | .set fd _ _ | .delete fd => fd

/-- An event, without the extra information that depends on the platform. -/
structure Ev where
  key : Key
  readable : Bool
  writable : Bool
deriving DecidableEq, Repr

/-- One observation.  At most one `wait` is in progress. -/
inductive Obs where
  | begin (t : Tid) (call : Call)
  /-- the thread's call returned -/
  | ret (t : Tid) (ok : Bool)
  | waitBegin
  | waitOk (evs : List Ev)
  | waitErr
deriving DecidableEq, Repr

/-- How the first call of `t` to return ended: oldest observation first, that is, last in the list. -/
def outcome (t : Tid) : List Obs → Option Bool
  | [] => none
  | o :: l =>
    match outcome t l with
    | some b => some b
    | none =>
      match o with
      | .ret u ok => if u = t then some ok else none
      | _ => none

/-- `l` is what happened since thread `t` began a call for the source `fd`.  That call is out of date: another call for the
source began after it had returned, and succeeded. -/
def Superseded (t : Tid) (fd : Fd) (l : List Obs) : Prop :=
  ∃ n2 v call n1, l = n2 ++ .begin v call :: n1 ∧ call.fd = fd ∧ outcome t n1 ≠ none ∧ outcome v n2 = some true

/-- There is a reason for an event with this key, given what happened before the `wait` returned: the key was given in a call
that did not fail (if `strict`), and that was not out of date when the `wait` began. -/
def Justified (strict : Prop) (past : List Obs) (key : Key) : Prop :=
  ∃ l2 t fd o l1, past = l2 ++ .begin t (.set fd key o) :: l1 ∧ (strict → outcome t l2 ≠ some false) ∧
    ∀ m2 m1, l2 = m2 ++ .waitBegin :: m1 → .waitBegin ∉ m2 → ¬ Superseded t fd m1

/-- Every event returned is justified: `wait` never makes up events, never returns those of deleted sources or with old keys. -/
def Conforms (strict : Prop) (tr : List Obs) : Prop :=
  ∀ later evs earlier, tr = later ++ .waitOk evs :: earlier → ∀ e ∈ evs, Justified strict earlier e.key

/-- The number of readable events with this key that were returned. -/
def returned (k : Key) : List Obs → Nat
  | [] => 0
  | .waitOk evs :: tr => evs.countP (fun e => e.readable && e.key == k) + returned k tr
  | _ :: tr => returned k tr

/-- The number of `add` and `modify` calls with this key. -/
def requested (k : Key) : List Obs → Nat
  | [] => 0
  | .begin _ (.set _ key _) :: tr => (if key = k then 1 else 0) + requested k tr
  | _ :: tr => requested k tr

/-- The program uses one-shot modes only, as `add` and `modify` do. -/
def AllOneshot (tr : List Obs) : Prop := ∀ t fd k o, .begin t (.set fd k o) ∈ tr → o = true

/-- Readable events come at most once per request. -/
def AtMostOnce (tr : List Obs) : Prop := ∀ k, returned k tr ≤ requested k tr

/-- The thread's call in progress. -/
def calling : List Obs → Tid → Option Call
  | [], _ => none
  | .begin u call :: tr, t => if u = t then some call else calling tr t
  | .ret u _ :: tr, t => if u = t then none else calling tr t
  | _ :: tr, t => calling tr t

/-- Calls for one source do not overlap in time. -/
def OneAtATime (tr : List Obs) : Prop :=
  ∀ later t call earlier, tr = later ++ .begin t call :: earlier → ∀ u c, calling earlier u = some c → c.fd ≠ call.fd

end Polling.Api
