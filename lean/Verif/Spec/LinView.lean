import Verif.Spec.Lin
import Verif.Spec.KqTrace
import Verif.Spec.IocpTrace
import Verif.Spec.PollTrace

/-
The registration calls in the observations of each backend's machine, for `Spec/Lin.lean`.  A call that is refused at once, for its
arguments alone (the reserved key, a mode that is not supported), shows no beginning and is left out.
-/

namespace Polling.Lin

/-- The kinds of errors a program can tell apart. -/
def ofRes : Res → Outcome
  | .ok => .ok
  | .err .alreadyExists => .dup
  | .err .notFound => .missing
  | .err _ => .failed

/-- A result, unless the call was left out. -/
def addRet {α : Type} (t : Tid) (r : Outcome) (tr : List (Obs α)) : List (Obs α) :=
  if calling tr t = none then tr else .ret t r :: tr

/-! kqueue -/

def kindK : KqSpec.Call → Kind
  | .add _ _ _ | .addFilter _ _ _ => .add
  | .modify _ _ _ | .modifyFilter _ _ _ => .modify
  | .delete _ | .deleteFilter _ => .delete

/-- A panic is a failure. -/
def ofKRet : KqSpec.Ret → Outcome
  | .res r => ofRes r
  | .panic => .failed

def ofKObs : List KqSpec.KObs → List (Obs KqSpec.Source)
  | [] => []
  | .begin t call :: tr => .begin t (kindK call) (KqSpec.sourceOf call) :: ofKObs tr
  | .ret t _ r :: tr => addRet t (ofKRet r) (ofKObs tr)
  | _ :: tr => ofKObs tr

/-! IOCP: sockets (`true`) and waitable handles (`false`) -/

def kindI : IocpSpec.Call → Kind × (Bool × Fd)
  | .add sock fd _ _ => (.add, sock, fd)
  | .modify sock fd _ _ => (.modify, sock, fd)
  | .delete sock fd => (.delete, sock, fd)

def ofIObs : List IocpSpec.IObs → List (Obs (Bool × Fd))
  | [] => []
  | .begin t call :: tr => .begin t (kindI call).1 (kindI call).2 :: ofIObs tr
  | .ret t _ r :: tr => addRet t (ofRes r) (ofIObs tr)
  | .deleted t _ _ _ r :: tr => addRet t (ofRes r) (ofIObs tr)
  | _ :: tr => ofIObs tr

/-! poll -/

def kindP : PollSpec.Op → Kind × Fd
  | .add fd _ _ => (.add, fd)
  | .modify fd _ _ => (.modify, fd)
  | .delete fd => (.delete, fd)

def ofPObs : List PollP.PObs → List (Obs Fd)
  | [] => []
  | .callBegin t op :: tr => .begin t (kindP op).1 (kindP op).2 :: ofPObs tr
  | .callEnd t r :: tr => addRet t (ofRes r) (ofPObs tr)
  | _ :: tr => ofPObs tr

end Polling.Lin
