import Verif.Model.Flags
import Verif.Spec.Tid

/-
What can be observed of a poller on Windows, and what it means.

A registration of a socket (or of a waitable handle) lasts from a successful `add` to the `delete`; it is named by a number
that is never used again.  A trace is a list of observations, newest first; `t` is the thread.
-/

namespace Polling.IocpSpec
open Iocp

/-- The name of a registration, or of a packet of the user. -/
notation "PId" => Nat

/-- A registration call: of lib.rs for sockets, of os/iocp.rs for waitable handles (`sock = false`). -/
inductive Call where
  | add (sock : Bool) (fd : Fd) (ev : Event EventExtra) (mode : PollMode)
  | modify (sock : Bool) (fd : Fd) (ev : Event EventExtra) (mode : PollMode)
  | delete (sock : Bool) (fd : Fd)
deriving DecidableEq, Repr

/-- One observation. -/
inductive IObs where
  /-- a registration call began -/
  | begin (t : Tid) (call : Call)
  /-- a registration call returned -/
  | ret (t : Tid) (call : Call) (r : Res)
  /-- the source was entered into the table as registration `p` -/
  | inserted (t : Tid) (sock : Bool) (fd : Fd) (p : PId) (ev : Event EventExtra) (mode : PollMode)
  /-- a `modify` of the source changed the registration `p` -/
  | changed (t : Tid) (sock : Bool) (fd : Fd) (p : PId) (ev : Event EventExtra) (mode : PollMode)
  /-- the source was taken out of the table -/
  | removed (t : Tid) (sock : Bool) (fd : Fd) (p : PId)
  /-- a `delete` that had taken registration `p` out of the table ended it, and returned -/
  | deleted (t : Tid) (sock : Bool) (fd : Fd) (p : PId) (r : Res)
  /-- an update of the registration was put into the queue of updates; taken out of it -/
  | queued (p : PId)
  | popped (p : PId)
  /-- the OS started to watch the socket for these conditions -/
  | polled (p : PId) (mask : Mask)
  /-- a `wait` found an event of a registration -/
  | deliver (sock : Bool) (fd : Fd) (p : PId) (ev : Event EventExtra)
  /-- a packet of the user was posted; a `wait` found it -/
  | posted (p : PId) (ev : Event EventExtra)
  | postErr (p : PId)
  | received (p : PId) (ev : Event EventExtra)
  /-- a `notify` call began -/
  | notifyBegin (t : Tid)
  /-- a `notify` call that began returned; failed -/
  | notified (t : Tid)
  | notifyErr (t : Tid) (e : Err)
  /-- a `notify` call began and returned, having nothing to do -/
  | notifySeen (t : Tid)
  | waitBegin
  /-- the backend was interrupted; the `wait` starts over, with an empty buffer -/
  | waitAgain
  /-- a `wait` returned `Ok(n)` with these events visible to the user -/
  | waitOk (n : Nat) (evs : List (Event EventExtra))
  | waitErr (e : Err)
  /-- a `wait` returned `Ok(0)` because another thread is waiting -/
  | waitBusy
  | tau
deriving DecidableEq, Repr

/-- The table of sources after a trace: which registration of a source there is. -/
def registered : List IObs → Bool → Fd → Option PId
  | [], _, _ => none
  | .inserted _ k fd p _ _ :: tr, sock, x => if sock = k ∧ x = fd then some p else registered tr sock x
  | .removed _ k fd _ :: tr, sock, x => if sock = k ∧ x = fd then none else registered tr sock x
  | _ :: tr, sock, x => registered tr sock x

/-- A registration as the history shows it. -/
structure Reg where
  sock : Bool
  fd : Fd
  ev : Event EventExtra
  mode : PollMode
  /-- an event was delivered since it was made or last modified -/
  fired : Bool
  /-- the `delete` that ended it returned -/
  ended : Bool
deriving DecidableEq, Repr

/-- What became of a registration. -/
def reg : List IObs → PId → Option Reg
  | [], _ => none
  | .inserted _ k fd p ev mode :: tr, x => if x = p then some ⟨k, fd, ev, mode, false, false⟩ else reg tr x
  | .changed _ _ _ p ev mode :: tr, x => if x = p then (reg tr x).map fun r => { r with ev, mode, fired := false } else reg tr x
  | .deleted _ _ _ p _ :: tr, x => if x = p then (reg tr x).map fun r => { r with ended := true } else reg tr x
  | .deliver _ _ p _ :: tr, x => if x = p then (reg tr x).map fun r => { r with fired := true } else reg tr x
  | _ :: tr, x => reg tr x

/-- The registration is armed: it is not a one-shot registration whose event was already delivered. -/
def armed (q : Reg) : Bool := !(q.fired && q.mode == .oneshot)

/-- Whether the OS should watch the source for the condition with this number (bits of `AFD_POLL_*`: 0 data, 1 urgent data,
2 room to send, 3 the peer shut down, 4 the connection was aborted, 7 a connection to accept, 8 a connection attempt failed).
While armed: errors always, the others as asked for by `readable` and `writable`, and what the user asked for with the
extra flags; afterwards nothing. -/
def watches (q : Reg) (i : Nat) : Bool :=
  armed q && ((q.ev.readable && (i == 0 || i == 1 || i == 3 || i == 7)) || (q.ev.writable && i == 2) || i == 4 || i == 8 ||
    q.ev.extra.flags.getLsbD i)

/-- Some condition of the list (bits of `AFD_POLL_*`, see `watches`) is reported. -/
def anyOf (reported : Mask) (l : List Nat) : Bool := l.any fun i => reported.getLsbD i

/-- The event a registration should deliver when the OS reports these conditions: readable for data, urgent data, the end of
the stream, a connection to accept, or an error; writable for room to send or an error; and only what was asked for.  There
is no event if neither is to be shown, unless one of the extra conditions asked for is reported. -/
def shown (q : Reg) (reported : Mask) : Option (Event EventExtra) :=
  let ev : Event EventExtra := ⟨q.ev.key, q.ev.readable && anyOf reported [0, 1, 3, 7, 4, 8], q.ev.writable && anyOf reported [2, 4, 8], ⟨reported⟩⟩
  if armed q && (ev.readable || ev.writable || anyOf (reported &&& q.ev.extra.flags) (List.range 32)) then some ev else none

/-- The event when the operation of the OS failed: whatever was asked for. -/
def shownError (q : Reg) : Option (Event EventExtra) :=
  if armed q && (q.ev.readable || q.ev.writable) then some ⟨q.ev.key, q.ev.readable, q.ev.writable, ⟨0#32⟩⟩ else none

/-- Every delivery of the trace satisfies `P`, which is given the registration as the history before the delivery shows it. -/
def EveryDelivery (P : Option Reg → Bool → Fd → Event EventExtra → Prop) (tr : List IObs) : Prop :=
  ∀ later sock fd p ev earlier, tr = later ++ .deliver sock fd p ev :: earlier → P (reg earlier p) sock fd ev

/-- The number of events delivered for this packet. -/
def deliveries (p : PId) (tr : List IObs) : Nat :=
  tr.countP fun o => match o with | .deliver _ _ q _ => q == p | _ => false

/-- A notification is owed: some `notify` returned after the last `wait` that returned `Ok`. -/
def owed : List IObs → Bool
  | [] => false
  | .notified _ :: _ => true
  | .notifySeen _ :: _ => true
  | .waitOk _ _ :: _ => false
  | _ :: tr => owed tr

/-- The packets posted, and received, oldest first. -/
def posts : List IObs → List (PId × Event EventExtra)
  | [] => []
  | .posted p ev :: tr => posts tr ++ [(p, ev)]
  | _ :: tr => posts tr
def receipts : List IObs → List (PId × Event EventExtra)
  | [] => []
  | .received p ev :: tr => receipts tr ++ [(p, ev)]
  | _ :: tr => receipts tr

/-- The updates put into the queue, and taken out, oldest first. -/
def queuings : List IObs → List PId
  | [] => []
  | .queued p :: tr => queuings tr ++ [p]
  | _ :: tr => queuings tr
def poppings : List IObs → List PId
  | [] => []
  | .popped p :: tr => poppings tr ++ [p]
  | _ :: tr => poppings tr

/-- What the `wait` in progress has found so far, oldest first. -/
def found : List IObs → List (Event EventExtra)
  | [] => []
  | .waitBegin :: _ => []
  | .waitAgain :: _ => []
  | .deliver _ _ _ ev :: tr => found tr ++ [ev]
  | .received _ ev :: tr => found tr ++ [ev]
  | _ :: tr => found tr

/-- Everything that any `wait` has found, oldest first. -/
def everFound : List IObs → List (Event EventExtra)
  | [] => []
  | .deliver _ _ _ ev :: tr => everFound tr ++ [ev]
  | .received _ ev :: tr => everFound tr ++ [ev]
  | _ :: tr => everFound tr

/-- Everything that any `wait` has returned, oldest first. -/
def everReturned : List IObs → List (Event EventExtra)
  | [] => []
  | .waitOk _ evs :: tr => everReturned tr ++ evs
  | _ :: tr => everReturned tr

end Polling.IocpSpec
