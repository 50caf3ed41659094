import Verif.Spec.PollTrace
import Verif.Spec.Trace

/-
What a run of the poll machine means in terms of the backend-independent observations of `Spec/Trace.lean`.
Uses the observations of the run only.
-/

namespace Polling.PollP
open PollB PollFlags PollSpec Spec

/-- What `poll(2)` is asked about a source with this registration: its interest, or nothing after a one-shot event. -/
def asks (c : Current EventExtra) : Flags :=
  if c.fired = true ∧ oneshot c.mode = true then 0#16
  else (if c.ev.readable then IN ||| PRI else 0#16) ||| (if c.ev.writable then OUT ||| WRBAND else 0#16)

/-- `poll(2)` reported something about the source. -/
def readyNow (os : Fd → Flags → Flags) (cur : Fd → Option (Current EventExtra)) (fd : Fd) : Bool :=
  match cur fd with
  | none => false
  | some c => os fd (asks c) != 0#16

/-- The observations in terms of `Spec/Trace.lean`.  The n-th event of a batch belongs to the n-th descriptor (in the
order in which the hash map is traversed) about which `poll(2)` reported something.  With `coded`, a `modify` that is
rejected because of its mode counts as a registration with the old mode: what poll.rs really does. -/
def history (coded : Bool) : List PObs → List (Obs EventExtra)
  | [] => []
  | .applied _ (.add fd ev mode) .ok :: tr => .reg fd ev mode :: history coded tr
  | .applied _ (.modify fd ev mode) .ok :: tr => .reg fd ev mode :: history coded tr
  | .applied _ (.delete fd) .ok :: tr => .unreg fd :: history coded tr
  | .applied _ (.modify fd ev _) (.err .unsupported) :: tr =>
    (match coded, current (history coded tr) fd with
     | true, some c => .reg fd ev c.mode
     | _, _ => .failed .unsupported) :: history coded tr
  | .applied _ _ (.err e) :: tr => .failed e :: history coded tr
  | .round _ os order _ (.events l) :: tr =>
    .deliver ((order.filter (readyNow os (current (history coded tr)))).zip l) :: history coded tr
  | .notified _ :: tr => .notified :: history coded tr
  | .notifiedAtOnce _ :: tr => .notified :: history coded tr
  | .waitBegin _ :: tr => .waitBegin :: history coded tr
  | .waitOk _ n evs :: tr => .waitOk n evs :: history coded tr
  | .waitErr _ e :: tr => .waitErr e :: history coded tr
  | .waitBusy _ :: tr => .waitBusy :: history coded tr
  | _ :: tr => .tau :: history coded tr

/-- No `modify` was rejected because of its mode. -/
def NoRejectedModify (tr : List PObs) : Prop := ∀ t fd ev mode, .applied t (.modify fd ev mode) (.err .unsupported) ∉ tr

end Polling.PollP
