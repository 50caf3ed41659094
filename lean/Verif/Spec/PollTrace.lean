import Verif.Model.PollProto

/-
What the observations of a run of the poll machine (newest first) say about the abstract map, about the calls in
progress and about pending notifications.  Uses the observations only.
-/

namespace Polling.PollP
open PollB PollFlags PollSpec

/-- The atomic steps of the map that the observations show, oldest first. -/
def steps : List PObs → List Step
  | [] => []
  | .applied _ op _ :: tr => steps tr ++ [.call op]
  | .round _ os order b _ :: tr => steps tr ++ [.round os order b]
  | _ :: tr => steps tr

/-- What those steps returned. -/
def outs : List PObs → List Out
  | [] => []
  | .applied _ _ r :: tr => outs tr ++ [.res r]
  | .round _ _ _ _ o :: tr => outs tr ++ [o]
  | _ :: tr => outs tr

/-- A thread's registration call in progress. -/
inductive CallSt where
  | idle
  | begun (op : Op)
  | done (r : Res)
deriving DecidableEq

/-- Progress of a call of thread `t`; `none`: the protocol "begin, apply once, return the result of applying" is
violated. -/
def callNext (t : Tid) (st : CallSt) : PObs → Option CallSt
  | .callBegin u op => if u ≠ t then some st else if st = .idle then some (.begun op) else none
  | .applied u op r => if u ≠ t then some st else if st = .begun op then some (.done r) else none
  | .callEnd u r => if u ≠ t then some st else if st = .done r then some .idle else none
  | _ => some st

/-- The call of thread `t` in progress after the observations. -/
def callState (t : Tid) : List PObs → Option CallSt
  | [] => some .idle
  | o :: tr => (callState t tr).bind fun st => callNext t st o

/-- The `wait` in progress. -/
inductive WaitSt where
  | idle
  /-- thread `t` waits and has no events yet -/
  | waiting (t : Tid)
  /-- thread `t` has collected these events -/
  | got (t : Tid) (evs : List (Event EventExtra))
deriving DecidableEq

/-- Progress of the `wait`; `none`: two threads wait at the same time, or a `wait` returns something else than what
its last look at the descriptors gave, or a second thread is not told that it does not get the lock. -/
def waitNext (st : WaitSt) : PObs → Option WaitSt
  | .waitBegin t => if st = .idle then some (.waiting t) else none
  | .polled t _ => if st = .waiting t then some st else none
  | .pollFailed t => if st = .waiting t then some st else none
  | .round t _ _ _ .again => if st = .waiting t then some st else none
  | .round t _ _ _ (.events l) => if st = .waiting t then some (.got t l) else none
  | .round _ _ _ _ (.res _) => none
  | .waitOk t n evs =>
    match st with
    | .waiting u => if u = t ∧ n = 0 ∧ evs = [] then some .idle else none
    | .got u l => if u = t ∧ n = evs.length ∧ evs = l.filter (fun e => e.key != NOTIFY_KEY) then some .idle else none
    | .idle => none
  | .waitErr t _ => if st = .waiting t then some .idle else none
  | .waitBusy _ => if st = .idle then none else some st
  | _ => some st

/-- The `wait` in progress after the observations. -/
def waitState : List PObs → Option WaitSt
  | [] => some .idle
  | o :: tr => (waitState tr).bind fun st => waitNext st o

/-- Which thread is looking at the table: from calling `poll()` until its results have been evaluated; `none`: it was
changed by a registration call, or looked at by another thread, in the meantime. -/
def looking : List PObs → Option (Option Tid)
  | [] => some none
  | .polled t _ :: tr => if looking tr = some none then some (some t) else none
  | .pollFailed t :: tr => if looking tr = some (some t) then some none else none
  | .round t _ _ _ _ :: tr => if looking tr = some (some t) then some none else none
  | .applied _ _ _ :: tr => if looking tr = some none then some none else none
  | _ :: tr => looking tr

/-- `notify` calls: which threads are inside one that began after the last successful `wait`, and whether one has
returned that no `wait` has answered: no `wait` has returned `Ok` since that call began. -/
def notices : List PObs → (Tid → Bool) × Bool
  | [] => (fun _ => false, false)
  | .notifyBegin t :: tr => (fun u => u == t || (notices tr).1 u, (notices tr).2)
  | .notifiedAtOnce _ :: tr => ((notices tr).1, true)
  | .notified t :: tr => (fun u => u != t && (notices tr).1 u, (notices tr).2 || (notices tr).1 t)
  | .notifyErr t :: tr => (fun u => u != t && (notices tr).1 u, (notices tr).2)
  | .waitOk _ _ _ :: _ => (fun _ => false, false)
  | _ :: tr => notices tr

/-- A `notify` call has returned and no `wait` has returned `Ok` since it began. -/
def due (tr : List PObs) : Bool := (notices tr).2

end Polling.PollP
