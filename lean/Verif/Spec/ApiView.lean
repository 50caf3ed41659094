import Verif.Spec.Api
import Verif.Spec.Trace
import Verif.Spec.KqTrace
import Verif.Spec.IocpTrace
import Verif.Spec.PollTrace

/-
The visible part (`Spec/Api.lean`) of the observations of each backend's machine.  Everything that a program cannot see is left
out.
-/

namespace Polling.Api

/-- An event without its extra information. -/
def view {X : Type} (e : Event X) : Ev := ⟨e.key, e.readable, e.writable⟩

/-- epoll and event ports: a registration call is one system call, so it begins and returns at once.  Calls that fail are left
out: the observation does not show their arguments. -/
def ofObs {X : Type} : List (Spec.Obs X) → List Obs
  | [] => []
  | .reg fd ev mode :: tr => .ret 0 true :: .begin 0 (.set fd ev.key (Spec.oneshot mode)) :: ofObs tr
  | .unreg fd :: tr => .ret 0 true :: .begin 0 (.delete fd) :: ofObs tr
  | .waitBegin :: tr => .waitBegin :: ofObs tr
  | .waitOk _ evs :: tr => .waitOk (evs.map view) :: ofObs tr
  | .waitErr _ :: tr => .waitErr :: ofObs tr
  | _ :: tr => ofObs tr

/-- A call of the portable interface on kqueue (the filters of the extension are not). -/
def ofKCall : KqSpec.Call → Option Call
  | .add fd ev mode | .modify fd ev mode => some (.set fd ev.key (KqSpec.oneshotMode mode))
  | .delete fd => some (.delete fd)
  | _ => none

/-- kqueue.  A call that is refused at once, because of a reserved key, is left out. -/
def ofKObs : List KqSpec.KObs → List Obs
  | [] => []
  | .begin t call :: tr =>
    match ofKCall call with
    | some c => .begin t c :: ofKObs tr
    | none => ofKObs tr
  | .ret t _ r :: tr => if calling (ofKObs tr) t = none then ofKObs tr else .ret t (r == .res .ok) :: ofKObs tr
  | .waitBegin _ :: tr => .waitBegin :: ofKObs tr
  | .waitOk _ _ evs :: tr => .waitOk (evs.map view) :: ofKObs tr
  | .waitErr _ _ :: tr => .waitErr :: ofKObs tr
  | _ :: tr => ofKObs tr

/-- The program does not use the extension for kqueue. -/
def KPortable (tr : List KqSpec.KObs) : Prop := ∀ t call, .begin t call ∈ tr → ofKCall call ≠ none

/-- A call of the portable interface on Windows (those for waitable handles are not). -/
def ofICall : IocpSpec.Call → Option Call
  | .add true fd ev mode | .modify true fd ev mode => some (.set fd ev.key (Spec.oneshot mode))
  | .delete true fd => some (.delete fd)
  | _ => none

/-- IOCP.  A call that is refused at once, because of a reserved key or an edge mode, is left out. -/
def ofIObs : List IocpSpec.IObs → List Obs
  | [] => []
  | .begin t call :: tr =>
    match ofICall call with
    | some c => .begin t c :: ofIObs tr
    | none => ofIObs tr
  | .ret t _ r :: tr => if calling (ofIObs tr) t = none then ofIObs tr else .ret t (r == .ok) :: ofIObs tr
  | .deleted t _ _ _ r :: tr => if calling (ofIObs tr) t = none then ofIObs tr else .ret t (r == .ok) :: ofIObs tr
  | .waitBegin :: tr => .waitBegin :: ofIObs tr
  | .waitOk _ evs :: tr => .waitOk (evs.map view) :: ofIObs tr
  | .waitErr _ :: tr => .waitErr :: ofIObs tr
  | _ :: tr => ofIObs tr

/-- The program uses neither waitable handles nor packets of its own. -/
def IPortable (tr : List IocpSpec.IObs) : Prop :=
  (∀ t call, .begin t call ∈ tr → ofICall call ≠ none) ∧ ∀ p ev, .posted p ev ∉ tr

/-- A call on poll. -/
def ofOp : PollSpec.Op → Call
  | .add fd ev mode | .modify fd ev mode => .set fd ev.key (Spec.oneshot mode)
  | .delete fd => .delete fd

/-- poll.  (Calls that are refused before they touch shared state are not part of the machine.) -/
def ofPObs : List PollP.PObs → List Obs
  | [] => []
  | .callBegin t op :: tr => .begin t (ofOp op) :: ofPObs tr
  | .callEnd t r :: tr => .ret t (r == .ok) :: ofPObs tr
  | .waitBegin _ :: tr => .waitBegin :: ofPObs tr
  | .waitOk _ _ evs :: tr => .waitOk (evs.map view) :: ofPObs tr
  | .waitErr _ _ :: tr => .waitErr :: ofPObs tr
  | _ :: tr => ofPObs tr

end Polling.Api
