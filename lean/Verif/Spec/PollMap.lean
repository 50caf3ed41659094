import Verif.Model.Flags

/-
Abstract specification of a registry with `poll(2)` readiness: a plain map from descriptor to registration.
It does not mention the table of poll.rs.
-/

namespace Polling.PollSpec
open PollB PollFlags

/-- One registration. -/
structure Reg where
  key : Key
  /-- what is being asked for now; nothing after a one-shot event was delivered -/
  readable : Bool
  writable : Bool
  oneshot : Bool
deriving DecidableEq, Repr

abbrev Map := Fd → Option Reg

/-- The map with one entry replaced. -/
def Map.set (m : Map) (fd : Fd) (r : Option Reg) : Map := fun x => if x = fd then r else m x

/-- Which modes `poll(2)` can do (`supports_level() = true`, `supports_edge() = false`). -/
def supported : PollMode → Bool
  | .oneshot | .level => true
  | .edge | .edgeOneshot => false

/-- A registration call. -/
inductive Op where
  | add (fd : Fd) (ev : Event EventExtra) (mode : PollMode)
  | modify (fd : Fd) (ev : Event EventExtra) (mode : PollMode)
  | delete (fd : Fd)
deriving DecidableEq, Repr

/-- Result and new map; `internal` are the descriptors that belong to the poller itself. -/
def apply (internal : Fd → Bool) (m : Map) : Op → Res × Map
  | .add fd ev mode =>
    if internal fd then (.err .invalidInput, m)
    else if (m fd).isSome then (.err .alreadyExists, m)
    else if supported mode then (.ok, m.set fd (some ⟨ev.key, ev.readable, ev.writable, mode == .oneshot⟩))
    else (.err .unsupported, m)
  | .modify fd ev mode =>
    if internal fd then (.err .invalidInput, m)
    else if (m fd).isNone then (.err .notFound, m)
    else if supported mode then (.ok, m.set fd (some ⟨ev.key, ev.readable, ev.writable, mode == .oneshot⟩))
    else (.err .unsupported, m)
  | .delete fd =>
    if internal fd then (.err .invalidInput, m)
    else if (m fd).isNone then (.err .notFound, m)
    else (.ok, m.set fd none)

/-- What the code does differently on an unsupported `modify` of a registered descriptor: the call fails but
key and interest have been replaced (mode kept). -/
def applyAsCoded (internal : Fd → Bool) (m : Map) : Op → Res × Map
  | .modify fd ev mode =>
    if internal fd then (.err .invalidInput, m)
    else match m fd with
      | none => (.err .notFound, m)
      | some r =>
        if supported mode then (.ok, m.set fd (some ⟨ev.key, ev.readable, ev.writable, mode == .oneshot⟩))
        else (.err .unsupported, m.set fd (some ⟨ev.key, ev.readable, ev.writable, r.oneshot⟩))
  | op => apply internal m op

/-- The flags a registration asks `poll(2)` for. -/
def Reg.ask (r : Reg) : Flags :=
  (if r.readable then IN ||| PRI else 0#16) ||| (if r.writable then OUT ||| WRBAND else 0#16)

/-- The event a ready registration gives. -/
def Reg.report (r : Reg) (revents : Flags) : Event EventExtra :=
  { key := r.key
    readable := decide (∃ c ∈ [IN, PRI, HUP, ERR], revents &&& c ≠ 0#16)
    writable := decide (∃ c ∈ [OUT, WRBAND, HUP, ERR], revents &&& c ≠ 0#16)
    extra := ⟨revents⟩ }

/-- The map after a wait that delivered the results `os`: delivered one-shot registrations ask for nothing. -/
def afterWait (os : Fd → Flags → Flags) (m : Map) : Map := fun fd =>
  (m fd).map fun r =>
    if r.oneshot ∧ os fd r.ask ≠ 0#16 then { r with readable := false, writable := false } else r

/-- What the OS reports for a descriptor (nothing if it is not registered). -/
def result (os : Fd → Flags → Flags) (m : Map) (fd : Fd) : Flags :=
  match m fd with
  | none => 0#16
  | some r => os fd r.ask

/-- The events of a wait: going through the descriptors in `order`, one event for each registered one with a
non-empty result. -/
def waitEvents (os : Fd → Flags → Flags) (m : Map) (order : List Fd) : List (Event EventExtra) :=
  order.filterMap fun fd => (m fd).bind fun r => if os fd r.ask ≠ 0#16 then some (r.report (os fd r.ask)) else none

/-- `order` lists every registered descriptor exactly once. -/
def ListsAll (order : List Fd) (m : Map) : Prop := order.Nodup ∧ ∀ fd, fd ∈ order ↔ (m fd).isSome = true

/-- One step of a history: a registration call, or one round of the loop of a `wait` (`order`: in which order the
hash map is traversed, `notified`: whether a notification is pending in the poller). -/
inductive Step where
  | call (op : Op)
  | round (os : Fd → Flags → Flags) (order : List Fd) (notified : Bool)

/-- What a step shows: a result; or "poll again"; or the events of a finished wait. -/
inductive Out where
  | res (r : Res)
  | again
  | events (l : List (Event EventExtra))
deriving DecidableEq

/-- The descriptors of the poller itself. -/
structure Internal where
  /-- descriptors refused by every call -/
  refuse : Fd → Bool
  /-- the descriptor that is polled for notifications, and for what -/
  fd : Fd
  flags : Flags

/-- What a step of a history shows, and the new map.  `how` says what a registration call does. -/
def stepSpec (how : (Fd → Bool) → Map → Op → Res × Map) (i : Internal) (m : Map) : Step → Out × Map
  | .call op => (.res (how i.refuse m op).1, (how i.refuse m op).2)
  | .round os order notified =>
    if notified = false ∧ os i.fd i.flags ≠ 0#16 ∧ (∀ fd ∈ order, result os m fd = 0#16) then
      (.again, m)
    else (.events (waitEvents os m order), afterWait os m)

/-- Everything a history shows. -/
def runSpec (how : (Fd → Bool) → Map → Op → Res × Map) (i : Internal) (m : Map) : List Step → List Out
  | [] => []
  | s :: rest => (stepSpec how i m s).1 :: runSpec how i (stepSpec how i m s).2 rest

/-- The map after a history. -/
def mapAfter (how : (Fd → Bool) → Map → Op → Res × Map) (i : Internal) (m : Map) : List Step → Map
  | [] => m
  | s :: rest => mapAfter how i (stepSpec how i m s).2 rest

/-- Every traversal order of the history lists the descriptors registered at that point. -/
def OrdersOk (how : (Fd → Bool) → Map → Op → Res × Map) (i : Internal) (m : Map) : List Step → Prop
  | [] => True
  | s :: rest =>
    (match s with
     | .call _ => True
     | .round _ order _ => ListsAll order m) ∧ OrdersOk how i (stepSpec how i m s).2 rest

/-- No registered descriptor is modified to a mode that is not supported. -/
def NoUnsupportedModify (i : Internal) (m : Map) : List Step → Prop
  | [] => True
  | s :: rest =>
    (match s with
     | .call (.modify fd _ mode) => i.refuse fd = true ∨ (m fd).isNone = true ∨ supported mode = true
     | _ => True) ∧ NoUnsupportedModify i (stepSpec apply i m s).2 rest

end Polling.PollSpec
