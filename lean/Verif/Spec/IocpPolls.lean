import Verif.Spec.IocpTrace

/- How often the OS is asked about a socket on Windows, and what may be a reason to ask again. -/

namespace Polling.IocpSpec
open Iocp

/-- How often the OS was asked to watch the socket of registration `p`. -/
def polls (p : PId) (tr : List IObs) : Nat := tr.countP fun o => match o with | .polled q _ => q == p | _ => false

/-- How often a `modify` changed the registration. -/
def changes (p : PId) (tr : List IObs) : Nat := tr.countP fun o => match o with | .changed _ _ _ q _ _ => q == p | _ => false

/-- The calls that were begun. -/
def begun (tr : List IObs) : List Call := tr.filterMap fun o => match o with | .begin _ call => some call | _ => none

/-- Some `wait` began, and is the only one, and neither returned, nor failed, nor was interrupted, nor found anything. -/
def oneWait (tr : List IObs) : Bool :=
  tr.count .waitBegin == 1 && tr.all fun o => match o with
    | .waitOk .. | .waitErr .. | .waitAgain | .deliver .. | .received .. => false
    | _ => true

end Polling.IocpSpec
