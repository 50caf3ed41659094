import Verif.Model.Flags
import Verif.Spec.Tid

/-
What can be observed of a poller on kqueue, and what it means.  kqueue watches *filters* (reading a descriptor, writing
it, a signal, ...) independently of each other, so the registrations are those of filters.

A trace is a list of observations, newest first.  `t` is the thread.
-/

namespace Polling.KqSpec
open Kqueue

/-- What can be registered: kqueue.rs:35-47 `SourceId`. -/
inductive Source where
  | fd (fd : Fd)
  | signal (sig : Int)
  | pid (pid : Nat)
  | timer (id : Nat)
deriving DecidableEq, Repr

/-- The filters of `polling::os::kqueue` (os/kqueue.rs:149, 174, 261).  The operation of a process filter and the
duration of a timer are left out: they do not affect what is registered (see `Spec/KqFilterTrace.lean`). -/
inductive Ext where
  | signal (sig : Int)
  | process (pid : Nat)
  | timer (id : Nat)
deriving DecidableEq, Repr

/-- A registration call. -/
inductive Call where
  | add (fd : Fd) (ev : Event EventExtra) (mode : PollMode)
  | modify (fd : Fd) (ev : Event EventExtra) (mode : PollMode)
  | delete (fd : Fd)
  | addFilter (x : Ext) (key : Key) (mode : PollMode)
  | modifyFilter (x : Ext) (key : Key) (mode : PollMode)
  | deleteFilter (x : Ext)
deriving DecidableEq, Repr

/-- How a call ends. -/
inductive Ret where
  | res (r : Res)
  | panic
deriving DecidableEq, Repr

/-- One observation. -/
inductive KObs where
  /-- a registration call began -/
  | begin (t : Tid) (call : Call)
  /-- a registration call returned -/
  | ret (t : Tid) (call : Call) (r : Ret)
  /-- the source was entered into, or removed from, the set of registered sources -/
  | inserted (t : Tid) (x : Source)
  | removed (t : Tid) (x : Source)
  /-- the OS accepted to watch a filter / to stop watching it -/
  | armed (t : Tid) (f : Filter) (key : BitVec 64) (oneshot clear : Bool)
  | disarmed (t : Tid) (f : Filter)
  /-- the OS refused a change of a filter -/
  | refused (t : Tid) (f : Filter) (errno : Nat)
  /-- a `wait` took these events from the OS (those of the poller itself left out) -/
  | deliver (t : Tid) (evs : List KEvent)
  /-- a `notify` call began -/
  | notifyBegin (t : Tid)
  /-- a `notify` call that began returned -/
  | notified (t : Tid)
  /-- a `notify` call began and returned, having nothing to do -/
  | notifySeen (t : Tid)
  | waitBegin (t : Tid)
  /-- a `wait` returned `Ok(n)` with these events visible to the user -/
  | waitOk (t : Tid) (n : Nat) (evs : List (Event EventExtra))
  | waitErr (t : Tid) (e : Err)
  /-- a `wait` returned `Ok(0)` because another thread is waiting -/
  | waitBusy (t : Tid)
  | tau
deriving DecidableEq, Repr

/-- How a filter is watched. -/
structure Watch where
  key : BitVec 64
  oneshot : Bool
  clear : Bool
  /-- delivered since it was last armed -/
  fired : Bool
deriving DecidableEq, Repr

/-- Watched no more: a one-shot filter that was delivered. -/
def Watch.gone (w : Watch) : Bool := w.oneshot && w.fired

/-- The registration of a filter after a trace.  `keep f` says that the kernel does not change the mode of a filter that is
already watched (so a new mode only takes effect if it is not). -/
def watch (keep : Filter → Bool) : List KObs → Filter → Option Watch
  | [], _ => none
  | .armed _ f key o c :: tr, x =>
    if x = f then
      match watch keep tr x with
      | some w => if keep x && !w.gone then some ⟨key, w.oneshot, w.clear, false⟩ else some ⟨key, o, c, false⟩
      | none => some ⟨key, o, c, false⟩
    else watch keep tr x
  | .disarmed _ f :: tr, x => if x = f then none else watch keep tr x
  | .deliver _ evs :: tr, x =>
    (watch keep tr x).map fun w => if x ∈ evs.map KEvent.filter then { w with fired := true } else w
  | _ :: tr, x => watch keep tr x

/-- A source is in the set of registered sources. -/
def registered : List KObs → Source → Bool
  | [], _ => false
  | .inserted _ y :: tr, x => if x = y then true else registered tr x
  | .removed _ y :: tr, x => if x = y then false else registered tr x
  | _ :: tr, x => registered tr x

/-- Thread `t` has begun a `notify` after the last `wait` that returned `Ok`. -/
def begun : List KObs → Tid → Bool
  | [], _ => false
  | .notifyBegin u :: tr, t => t == u || begun tr t
  | .waitOk _ _ _ :: _, _ => false
  | _ :: tr, t => begun tr t

/-- A notification is owed: some `notify` was called, and returned, after the last `wait` that returned `Ok`. -/
def owed : List KObs → Bool
  | [] => false
  | .notifySeen _ :: _ => true
  | .notified t :: tr => begun tr t || owed tr
  | .waitOk _ _ _ :: _ => false
  | _ :: tr => owed tr

/-- Every delivery of the trace satisfies `P`, which is given the history before the delivery. -/
def EveryDelivery (P : List KObs → List KEvent → Prop) (tr : List KObs) : Prop :=
  ∀ later t evs earlier, tr = later ++ .deliver t evs :: earlier → P earlier evs

/-! Registration calls. -/

/-- The call that thread `t` is executing. -/
def calling : List KObs → Tid → Option Call
  | [], _ => none
  | .begin u call :: tr, t => if u = t then some call else calling tr t
  | .ret u _ _ :: tr, t => if u = t then none else calling tr t
  | _ :: tr, t => calling tr t

/-- The observation is a change of a filter (or its refusal) made by `t`. -/
def changeBy (t : Tid) : KObs → Bool
  | .armed u _ _ _ _ | .disarmed u _ | .refused u _ _ => u == t
  | _ => false

/-- The changes made by `t` since it last began a registration call, oldest first. -/
def changeLog : List KObs → Tid → List KObs
  | [], _ => []
  | .begin u _ :: tr, t => if u = t then [] else changeLog tr t
  | o :: tr, t => if changeBy t o then changeLog tr t ++ [o] else changeLog tr t

/-- No other thread has changed the registration of the filter since `t` last began a registration call. -/
def undisturbed : List KObs → Tid → Filter → Bool
  | [], _, _ => true
  | .begin u _ :: tr, t, f => if u = t then true else undisturbed tr t f
  | .armed u g _ _ _ :: tr, t, f => (u == t || g != f) && undisturbed tr t f
  | .disarmed u g :: tr, t, f => (u == t || g != f) && undisturbed tr t f
  | _ :: tr, t, f => undisturbed tr t f

/-- Which modes are one-shot, which are edge-triggered (lib.rs:141-182). -/
def oneshotMode : PollMode → Bool
  | .oneshot | .edgeOneshot => true
  | .level | .edge => false
def edgeMode : PollMode → Bool
  | .edge | .edgeOneshot => true
  | .oneshot | .level => false

/-- What an extension filter watches. -/
def extFilter : Ext → Filter
  | .signal n => .signal n
  | .process p => .proc p
  | .timer i => .timer i

/-- What a call asks for a filter: `none` if it does not concern it, `some none` not to watch it, `some (some (key, mode))` to
watch it. -/
def wants : Call → Filter → Option (Option (Key × PollMode))
  | .add fd ev mode, f | .modify fd ev mode, f =>
    if f = .read fd then some (if ev.readable then some (ev.key, mode) else none)
    else if f = .write fd then some (if ev.writable then some (ev.key, mode) else none)
    else none
  | .delete fd, f => if f = .read fd ∨ f = .write fd then some none else none
  | .addFilter x key mode, f | .modifyFilter x key mode, f => if f = extFilter x then some (some (key, mode)) else none
  | .deleteFilter x, f => if f = extFilter x then some none else none

/-- The errors of refused changes, oldest first. -/
def errors : List KObs → List Nat
  | [] => []
  | .refused _ _ e :: l => e :: errors l
  | _ :: l => errors l

/-- An error that counts: kqueue.rs:159-170 says which are ignored (ENOENT and EPIPE). -/
def serious (errno : Nat) : Bool := errno != 2 && errno != 32

/-- The latest acceptance of the OS to watch a filter, unless it stopped watching it since: key, one-shot, edge. -/
def lastArm : List KObs → Filter → Option (BitVec 64 × Bool × Bool)
  | [], _ => none
  | .armed _ g key o c :: tr, f => if f = g then some (key, o, c) else lastArm tr f
  | .disarmed _ g :: tr, f => if f = g then none else lastArm tr f
  | _ :: tr, f => lastArm tr f

/-- The OS accepted to watch the filter. -/
def arms (f : Filter) : KObs → Bool
  | .armed _ g _ _ _ => g == f
  | _ => false

/-- The events that the `wait` of `t` took from the OS (since it began; when it retries, the earlier ones are lost). -/
def taken : List KObs → Tid → List KEvent
  | [], _ => []
  | .deliver u evs :: tr, t => if u = t then evs else taken tr t
  | .waitBegin u :: tr, t => if u = t then [] else taken tr t
  | _ :: tr, t => taken tr t

/-- The source a call is about. -/
def sourceOf : Call → Source
  | .add fd _ _ | .modify fd _ _ | .delete fd => .fd fd
  | .addFilter x _ _ | .modifyFilter x _ _ | .deleteFilter x =>
    match x with
    | .signal n => .signal n
    | .process p => .pid p
    | .timer i => .timer i

/-- The result of a call that the OS has no reason to refuse, depending on whether its source is registered. -/
def expected : Call → Bool → Res
  | .add _ _ _, true | .addFilter _ _ _, true => .err .alreadyExists
  | .add _ _ _, false | .addFilter _ _ _, false => .ok
  | .modify _ _ _, true | .modifyFilter _ _ _, true | .delete _, true | .deleteFilter _, true => .ok
  | .modify _ _ _, false | .modifyFilter _ _ _, false | .delete _, false | .deleteFilter _, false => .err .notFound

/-- Whether the source is registered after such a call. -/
def after : Call → Bool → Bool
  | .add _ _ _, _ | .addFilter _ _ _, _ => true
  | .modify _ _ _, r | .modifyFilter _ _ _, r => r
  | .delete _, _ | .deleteFilter _, _ => false

/-- The call is a deletion. -/
def deletes : Call → Bool
  | .delete _ | .deleteFilter _ => true
  | _ => false

end Polling.KqSpec
