import Verif.Model.KqM

/-! The system call `kevent` with changes and room for events (kqueue(2)), and kqueue.rs:143-173 `submit_changes` in terms
of it.  In `KqM` the changes of a submission are processed one by one and nothing else happens; here is the justification. -/

namespace Polling.KqM
open Kqueue KqSpec

/-- Result of the system call. (OS; kqueue.rs:154) -/
inductive KRes where
  /-- returned, with these entries in the list of events -/
  | done (out : List KEvent) (k : Kern)
  /-- no entry to return: waits until a knote becomes active (no timeout) -/
  | blocks (k : Kern)
  /-- an error while processing a change, and no room to report it in the list -/
  | fails (errno : Nat) (k : Kern)

/-- Kernel `kevent`: process the change list (`faults`: errors the OS chooses for each), putting a receipt into the event
list for each change with `EV_RECEIPT`, or with an error, while there is room; then, if there is room left, fill it
from the active knotes (`stop`: kernels which do not look for events when there are receipts).
(OS; called at kqueue.rs:154, 240) -/
def keventApply (c : Cfg) : List (Option Nat) → Kern → List KEvent → Nat → List KEvent → KRes ⊕ (Kern × Nat × List KEvent)
  | _, k, [], room, out => .inr (k, room, out)
  | faults, k, ev :: chg, room, out =>
    let (errno, k) := register c (faults.head?.getD none) k ev
    if errno ≠ 0 ∨ ev.flags.receipt = true then
      match room with
      | room + 1 => keventApply c faults.tail k chg room (out ++ [receipt ev errno])
      | 0 => if errno ≠ 0 then .inl (.fails errno k) else keventApply c faults.tail k chg 0 out
    else keventApply c faults.tail k chg room out

/-- OS: the whole system call, as called at kqueue.rs:154 and 240. -/
def kevent (c : Cfg) (stop : Bool) (faults : List (Option Nat)) (k : Kern) (chg : List KEvent) (room : Nat) : KRes :=
  match keventApply c faults k chg room [] with
  | .inl r => r
  | .inr (k, room, out) =>
    if room = 0 ∨ (stop = true ∧ out ≠ []) then .done out k
    else
      let (evs, k) := harvest c k room
      if out ++ evs = [] then .blocks k else .done (out ++ evs) k

/-- kqueue.rs:148-172 `submit_changes`: the event list has room for as many entries as there are changes, and there is no
timeout.  `none`: it blocks. -/
def submitChanges (c : Cfg) (stop : Bool) (faults : List (Option Nat)) (k : Kern) (chg : List KEvent) : Option (Res × Kern) :=
  match kevent c stop faults k chg chg.length with
  | .done out k => some (submitResult out, k)
  | .blocks _ => none
  | .fails e k => some (.err (.os e), k)

/-- What `KqM` does with the changes: one after the other. (kqueue.rs:143-173) -/
def oneByOne (c : Cfg) : List (Option Nat) → Kern → List KEvent → List KEvent → List KEvent × Kern
  | _, k, [], out => (out, k)
  | faults, k, ev :: chg, out =>
    let (errno, k) := register c (faults.head?.getD none) k ev
    oneByOne c faults.tail k chg (out ++ [receipt ev errno])

end Polling.KqM
