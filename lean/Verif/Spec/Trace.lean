import Verif.Model.Base

/-
What can be observed of a poller, and what observations mean.  Independent of any backend.

A trace is a list of observations, newest first.
-/

namespace Polling.Spec

/-- One observation.  `X` is the backend's extra information. -/
inductive Obs (X : Type) where
  /-- `add` or `modify` succeeded for this source -/
  | reg (fd : Fd) (ev : Event X) (mode : PollMode)
  /-- `delete` succeeded for this source -/
  | unreg (fd : Fd)
  /-- a registration call returned an error -/
  | failed (e : Err)
  /-- a `wait` took these events (with the source each belongs to) from the OS -/
  | deliver (evs : List (Fd × Event X))
  /-- a `notify` call returned -/
  | notified
  /-- a `notify` call returned an error -/
  | notifyErr (e : Err)
  /-- a `wait` call began -/
  | waitBegin
  /-- a `wait` returned `Ok(n)` with these events visible to the user -/
  | waitOk (n : Nat) (evs : List (Event X))
  /-- a `wait` returned an error -/
  | waitErr (e : Err)
  /-- a `wait` returned `Ok(0)` because another thread is waiting -/
  | waitBusy
  /-- anything else -/
  | tau
deriving DecidableEq, Repr

/-- The current registration of a source. -/
structure Current (X : Type) where
  ev : Event X
  mode : PollMode
  /-- an event of the source was delivered since it was registered or last modified -/
  fired : Bool
deriving DecidableEq, Repr

variable {X : Type}

/-- The registration of a source after a trace (newest first), if any. -/
def current : List (Obs X) → Fd → Option (Current X)
  | [], _ => none
  | .reg fd ev mode :: tr, x => if x = fd then some ⟨ev, mode, false⟩ else current tr x
  | .unreg fd :: tr, x => if x = fd then none else current tr x
  | .deliver evs :: tr, x =>
    (current tr x).map fun c => if x ∈ evs.map Prod.fst then { c with fired := true } else c
  | _ :: tr, x => current tr x

/-- A notification is owed: some `notify` returned after the last `wait` that returned `Ok`. -/
def owed : List (Obs X) → Bool
  | [] => false
  | .notified :: _ => true
  | .waitOk _ _ :: _ => false
  | _ :: tr => owed tr

/-- The events the `wait` in progress has taken from the OS, if it has. -/
def lastDelivery : List (Obs X) → Option (List (Fd × Event X))
  | [] => none
  | .deliver evs :: _ => some evs
  | .waitBegin :: _ => none
  | .waitOk _ _ :: _ => none
  | .waitErr _ :: _ => none
  | _ :: tr => lastDelivery tr

/-- Every delivery of the trace satisfies `P`, which is given the history before the delivery. -/
def EveryDelivery (P : (Fd → Option (Current X)) → List (Fd × Event X) → Prop) (tr : List (Obs X)) : Prop :=
  ∀ later evs earlier, tr = later ++ .deliver evs :: earlier → P (current earlier) evs

/-- The mode disarms a source after one event. -/
def oneshot : PollMode → Bool
  | .oneshot | .edgeOneshot => true
  | .level | .edge => false

/-- Each delivered event belongs to a source registered at that moment and carries its latest key. -/
def RightKey (cur : Fd → Option (Current X)) (evs : List (Fd × Event X)) : Prop :=
  ∀ fd e, (fd, e) ∈ evs → ∃ c, cur fd = some c ∧ e.key = c.ev.key

/-- No event is delivered for a source that is not registered. -/
def OnlyRegistered (cur : Fd → Option (Current X)) (evs : List (Fd × Event X)) : Prop :=
  ∀ fd, cur fd = none → fd ∉ evs.map Prod.fst

/-- A source in a one-shot mode that already fired is not delivered again, and not twice at once. -/
def OneShot (cur : Fd → Option (Current X)) (evs : List (Fd × Event X)) : Prop :=
  ∀ fd c, cur fd = some c → oneshot c.mode = true →
    (c.fired = true → fd ∉ evs.map Prod.fst) ∧ (evs.map Prod.fst).count fd ≤ 1

end Polling.Spec
