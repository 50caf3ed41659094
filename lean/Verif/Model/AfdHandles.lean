import Verif.Model.AfdGroups
import Verif.Spec.AfdHandleTrace

/-
The handles behind the AFD helpers of `AfdGroups`: afd.rs:342-348 `Drop`, 360-436 `Afd::new`, iocp/port.rs:170-196 `register`, and the
end of iocp/mod.rs:584-593 one step per system call, with the early returns of `?` (the `Arc` is dropped, which closes the handle, before the
mutex of the list is released: locals are dropped in reverse order).

The system gives any number that is not in use to a new handle; the rest of the process opens and closes handles, too.  `CloseHandle`
closes the handle that has the number now, whoever opened it.  The name and attributes of the device (afd.rs:360-402) and the
conversion of the status to an error (afd.rs:424-427) are not modelled.
-/

namespace Polling.AfdHandles
open AfdHSpec AfdSpec

/-- Where the thread that makes a new helper is: iocp/mod.rs:584-593, iocp/port.rs:170-196. -/
inductive Stage where
  /-- not there -/
  | none
  /-- `Afd::new` has returned; iocp/port.rs:178 `CreateIoCompletionPort` is next -/
  | join (h : HNo)
  /-- iocp/port.rs:187 `SetFileCompletionNotificationModes` is next -/
  | skip (h : HNo)
  /-- iocp/mod.rs:591 `push` is next -/
  | push (h : HNo)
  /-- iocp/mod.rs:588, the `?`: the `Arc` is dropped -/
  | drop (h : HNo) (e : Err)
  /-- the error is returned -/
  | fail (e : Err)
deriving DecidableEq, Repr

/-- Who has a handle.  (the handle table of the process: no counterpart in the code) -/
inductive Owner where
  | free
  | poller
  | other
deriving DecidableEq, Repr

/-- The helpers (iocp/mod.rs:86) and their handles (afd.rs:318-324). -/
structure S where
  g : AfdGroups.S
  stage : Stage
  /-- afd.rs:320 `handle` of each helper -/
  handle : Nat → HNo
  /-- helpers whose last `Arc` was dropped (the count is 0), and whose `Drop` (afd.rs:342-348) is about to run -/
  closing : List HNo
  /-- the handle table of the process -/
  owner : HNo → Owner
  /-- what iocp/port.rs:178 did to a handle -/
  joined : HNo → Bool
  /-- what iocp/port.rs:187 did to a handle -/
  skips : HNo → Bool

/-- A new poller (iocp/mod.rs:143); the handles of the process are opened by `otherOpen`. -/
def init : S := ⟨AfdGroups.init, .none, fun _ => 0, [], fun _ => .free, fun _ => false, fun _ => false⟩

/-- Changes one place.  (plumbing of the model, no counterpart in the code) -/
def put {α : Type} (f : Nat → α) (x : Nat) (v : α) : Nat → α := fun y => if y = x then v else f y

/-- afd.rs:408-434: the system opens the device. -/
def openH (s : S) (h : HNo) : S :=
  { s with owner := put s.owner h .poller, joined := put s.joined h false, skips := put s.skips h false, stage := .join h }

/-- afd.rs:345 `CloseHandle` -/
def closeH (s : S) (h : HNo) : S := { s with owner := put s.owner h .free }

/-- Steps: iocp/mod.rs:548-594, iocp/port.rs:170-196, afd.rs:342-348, 408-434. -/
inductive Act where
  /-- iocp/mod.rs:553-554: a thread takes the mutex -/
  | start (t : Tid)
  /-- the next step of the search; `h`: the handle the system opens if it is asked to; `fault`: the system call fails -/
  | go (h : HNo) (fault : Option Err)
  /-- the packet of a socket is dropped, or an `add` fails after line 202 (iocp/mod.rs:1118) -/
  | release (a : Nat)
  /-- the `i`-th of the `Drop`s (afd.rs:342-348) that are about to run -/
  | close (i : Nat)
  /-- the rest of the process opens a handle -/
  | otherOpen (h : HNo)
  /-- the rest of the process closes one of its handles -/
  | otherClose (h : HNo)
deriving DecidableEq, Repr

/-- The search is about to make a helper: iocp/mod.rs:585. -/
def atEnd (g : AfdGroups.S) : Bool :=
  match g.search with
  | .look _ i => g.list[i]? == none
  | _ => false

/-- The effect of a step and what is observed; `none`: not possible. (iocp/mod.rs:548-594; iocp/port.rs:170-196; afd.rs:342-348, 408-434) -/
def step (s : S) : Act → Option (S × HObs)
  | .start t => (AfdGroups.step s.g (.start t)).map fun r => ({ s with g := r.1 }, .helper r.2)
  | .go h fault =>
    match s.stage with
    | .none =>
      if atEnd s.g then
        -- line 585
        match fault with
        | some e => some ({ s with stage := .fail e }, .tau)
        | none => if s.owner h = .free then some (openH s h, .opened h) else none
      else (AfdGroups.step s.g (.go none)).map fun r => ({ s with g := r.1 }, .helper r.2)
    | .join h =>
      -- iocp/port.rs:177-182
      match fault with
      | some e => some ({ s with stage := .drop h e }, .tau)
      | none => some ({ s with joined := put s.joined h true, stage := .skip h }, .joined h)
    | .skip h =>
      -- iocp/port.rs:184-193
      match fault with
      | some e => some ({ s with stage := .drop h e }, .tau)
      | none => some ({ s with skips := put s.skips h true, stage := .push h }, .skips h)
    | .push h =>
      -- line 591
      (AfdGroups.step s.g (.go none)).bind fun r =>
        match r.2 with
        | .created t a => some ({ s with g := r.1, handle := put s.handle a h, stage := .none }, .made t a h)
        | _ => none
    | .drop h e => some ({ closeH s h with stage := .fail e }, .closed h)
    | .fail e => (AfdGroups.step s.g (.go (some e))).map fun r => ({ s with g := r.1, stage := .none }, .helper r.2)
  | .release a =>
    (AfdGroups.step s.g (.release a)).map fun r =>
      ({ s with g := r.1, closing := if r.1.count a = 0 then s.handle a :: s.closing else s.closing }, .helper r.2)
  | .close i =>
    match s.closing[i]? with
    | some h => some ({ closeH s h with closing := s.closing.eraseIdx i }, .closed h)
    | none => none
  | .otherOpen h => if s.owner h = .free then some ({ s with owner := put s.owner h .other }, .otherOpened h) else none
  | .otherClose h => if s.owner h = .other then some ({ s with owner := put s.owner h .free }, .otherClosed h) else none

/-- Reachable states with the trace that led to them. (plumbing of the model, no counterpart in the
code) -/
inductive Reach : S → List HObs → Prop
  | init : Reach init []
  | step {s tr a s' o} : Reach s tr → step s a = some (s', o) → Reach s' (o :: tr)

/-- Run a list of steps. (plumbing of the model, no counterpart in the code) -/
def runActs (s : S) : List Act → Option (S × List HObs)
  | [] => some (s, [])
  | a :: as => (step s a).bind fun r => (runActs r.1 as).map fun q => (q.1, q.2 ++ [r.2])

end Polling.AfdHandles
