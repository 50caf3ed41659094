import Verif.Model.KqM
import Verif.Spec.KqFilterTrace

/-
The contents of the process and timer filters of the kqueue backend (os/kqueue.rs:172-287), which `Model/KqM.lean` leaves out:
which operation of a process is asked for (`fflags`) and how long a timer runs (`data`).  A layer on `KqM`: every step of the
poller is one of `KqM.step`; this file adds what the call was given, what the kernel has been told, processes doing things,
and time.

Kernel (trusted): a knote of a process becomes active when the process does something in its `fflags`; a knote of a timer when
its period is over, and again every period; `EV_CLEAR` forgets the reported condition; `EV_ADD` of an existing knote replaces
`fflags`/`data`, starts the period anew, and (`Cfg.resets`) drops an expiry not yet reported.  Durations are those given:
rounding by rustix and the kernel is left out.
-/

namespace Polling.KqFilters
open Kqueue KqSpec KqFilterSpec

/-- The kernel. (no counterpart in the code) -/
structure Cfg where
  k : KqM.Cfg
  /-- kernel: `EV_ADD` of an existing timer drops an expiry that has not been reported -/
  resets : Bool

/-- What a change tells the kernel besides filter, flags and key: `kqueue::EventFilter` (os/kqueue.rs:155-158, 238-242,
272-275). -/
inductive Note where
  | nothing
  /-- `ProcessEvents::EXIT`, `FORK`, `EXEC` -/
  | proc (exit fork exec : Bool)
  | timer (d : Nat)
deriving DecidableEq, Repr

/-- os/kqueue.rs:153-162, 230-246, 270-279 `FilterSealed::filter`, the part not in `KqM.Ext.filter`. -/
def note : Ask → Note
  | .signal _ => .nothing
  | .process _ .exit => .proc true false false
  | .process _ .fork => .proc false true false
  | .process _ .exec => .proc false false true
  | .timer _ d => .timer d

/-- The filter without contents, as in `KqM`. (os/kqueue.rs:149, 174-183, 261-267) -/
def ext : Ask → Ext
  | .signal n => .signal n
  | .process p _ => .process p
  | .timer i _ => .timer i

/-- os/kqueue.rs:98-124 `add_filter`, `modify_filter`, `delete_filter`. -/
inductive Kind where
  | add
  | modify
  | delete
deriving DecidableEq, Repr

/-- os/kqueue.rs:98-124: the call without the contents of the filter. -/
def callOf (kind : Kind) (x : Ask) (key : Key) (mode : PollMode) : Call :=
  match kind with
  | .add => .addFilter (ext x) key mode
  | .modify => .modifyFilter (ext x) key mode
  | .delete => .deleteFilter (ext x)

/-- The whole state. (os/kqueue.rs:149, 174-183, 261-267: the contents; the rest is the OS) -/
structure S where
  m : KqM.S
  /-- the filter the current call of a thread was given -/
  arg : Tid → Option Ask
  /-- kernel: the contents of a knote -/
  note : Filter → Note
  /-- kernel: when the current period of a timer began -/
  since : Filter → Nat
  /-- kernel: the clock -/
  now : Nat

/-- Filters with contents. (os/kqueue.rs:172-287) -/
def special : Filter → Bool
  | .proc _ | .timer _ => true
  | _ => false

/-- A call of the extension. (os/kqueue.rs:98-124) -/
def isExt : Call → Bool
  | .addFilter _ _ _ | .modifyFilter _ _ _ | .deleteFilter _ => true
  | _ => false

/-- Plumbing of the model, no counterpart in the code. -/
def put {α β : Type} [DecidableEq α] (f : α → β) (x : α) (v : β) : α → β := fun y => if y = x then v else f y

/-- Kernel: the condition of the filter is forgotten and its knote is not active. (part of the OS, no counterpart in the code) -/
def forget (m : KqM.S) (f : Filter) : KqM.S :=
  { m with k := { m.k with cond := put m.k.cond f none, queue := m.k.queue.filter (· ≠ f) } }

/-- Kernel: a change is accepted for a knote that is new, or a timer that is reset: nothing happened to it yet.
(part of the OS, no counterpart in the code) -/
def fresh (c : Cfg) (m : KqM.S) (f : Filter) : KqM.S :=
  if (m.k.knotes f).isNone then forget m f
  else match f with
    | .timer _ => if c.resets then forget m f else m
    | _ => m

/-- Kernel: events with `EV_CLEAR` forget what they report. (part of the OS, no counterpart in the code) -/
def reset (m : KqM.S) (evs : List KEvent) : KqM.S :=
  { m with k := { m.k with cond := fun f => if special f && has evs f (·.flags.clear) then none else m.k.cond f } }

/-- The operation is among those the kernel has been told. (OS; os/kqueue.rs:231-235) -/
def Note.wants : Note → ProcOp → Bool
  | .proc e _ _, .exit => e
  | .proc _ f _, .fork => f
  | .proc _ _ x, .exec => x
  | _, _ => false

/-- Steps. (os/kqueue.rs:98-124; the last three are the environment) -/
inductive Act where
  | base (t : Tid) (a : KqM.Act)
  /-- a call of the extension begins -/
  | callF (t : Tid) (kind : Kind) (x : Ask) (key : Key) (mode : PollMode)
  /-- a process does something; `eof`: the kernel says `EV_EOF` (an exit) -/
  | did (t : Tid) (pid : Nat) (op : ProcOp) (eof : Bool)
  | expire (t : Tid) (id : Nat)
  | tick (d : Nat)
deriving DecidableEq, Repr

/-- The next change of the thread adds a filter with contents. (os/kqueue.rs:106-114) -/
def adding (s : S) (t : Tid) : Option Filter :=
  match s.m.pc t with
  | .submit _ (ev :: _) _ => if ev.flags.add && special ev.filter then some ev.filter else none
  | _ => none

/-- A step of the poller. (kqueue.rs:87-264; os/kqueue.rs:98-124) -/
def baseStep (c : Cfg) (s : S) (t : Tid) (a : KqM.Act) : Option (S × PObs) :=
  match a with
  | .call call => if isExt call then none else (KqM.step c.k s.m t a).map fun r => ({ s with m := r.1 }, .k r.2)
  | .cond f _ => if special f then none else (KqM.step c.k s.m t a).map fun r => ({ s with m := r.1 }, .k r.2)
  | .kevent => (KqM.step c.k s.m t a).map fun r =>
      match r.2 with
      | .deliver _ evs => ({ s with m := reset r.1 evs }, .k r.2)
      | _ => ({ s with m := r.1 }, .k r.2)
  | .change none =>
    match adding s t with
    | some f => (s.arg t).bind fun x => (KqM.step c.k (fresh c s.m f) t a).map fun r =>
        ({ s with m := r.1, note := put s.note f (note x), since := put s.since f s.now }, .armed t x)
    | none => (KqM.step c.k s.m t a).map fun r => ({ s with m := r.1 }, .k r.2)
  | _ => (KqM.step c.k s.m t a).map fun r => ({ s with m := r.1 }, .k r.2)

/-- The effect of a step and what can be observed of it; `none` if the step is not possible.
(kqueue.rs:87-264; os/kqueue.rs:98-124, 228-285) -/
def step (c : Cfg) (s : S) : Act → Option (S × PObs)
  | .base t a => baseStep c s t a
  | .callF t kind x key mode => (KqM.step c.k s.m t (.call (callOf kind x key mode))).map fun r =>
      ({ s with m := r.1, arg := put s.arg t (some x) }, .k r.2)
  | .did t p op eof =>
    if (s.m.k.knotes (.proc p)).isSome && (s.note (.proc p)).wants op then
      (KqM.step c.k s.m t (.cond (.proc p) (some eof))).map fun r => ({ s with m := r.1 }, .did p op)
    else some (s, .did p op)
  | .expire t i =>
    match s.note (.timer i) with
    | .timer d =>
      if (s.m.k.knotes (.timer i)).isSome && decide (s.since (.timer i) + d ≤ s.now) then
        (KqM.step c.k s.m t (.cond (.timer i) (some false))).map fun r =>
          ({ s with m := r.1, since := put s.since (.timer i) (s.since (.timer i) + d) }, .expired i)
      else none
    | _ => none
  | .tick d => some ({ s with now := s.now + d }, .tick d)

/-- kqueue.rs:51-70 `Poller::new`. -/
def init (c : Cfg) (cond : Filter → Option Bool) : S :=
  ⟨KqM.init c.k cond, fun _ => none, fun _ => .nothing, fun _ => 0, 0⟩

/-- States that can be reached, with the trace. (plumbing of the model, no counterpart in the code) -/
inductive Reach (c : Cfg) : S → List PObs → Prop where
  | init (cond) : Reach c (init c cond) []
  | step {s tr a s' o} : Reach c s tr → step c s a = some (s', o) → Reach c s' (o :: tr)

/-- A sequence of steps. (plumbing of the model, no counterpart in the code) -/
def runActs (c : Cfg) (s : S) : List Act → Option (S × List PObs)
  | [] => some (s, [])
  | a :: as => (step c s a).bind fun r => (runActs c r.1 as).map fun q => (q.1, q.2 ++ [r.2])

end Polling.KqFilters
