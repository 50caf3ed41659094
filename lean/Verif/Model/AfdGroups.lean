import Verif.Model.PollTable
import Verif.Spec.AfdTrace

/-
iocp/mod.rs:548-594 `afd_handle`: the list of AFD helper handles and the search in it.

The list is only accessed with its mutex held (line 553), so at most one thread searches; but the reference counts of the helpers
go down at any time, when the packet of a socket is dropped, and they only go up here: line 202 is the only place where a
reference is kept, and none is cloned elsewhere.  A reference count is the number of sockets whose packet exists, or is being
made.  The two accesses of a search to a reference count (lines 557 and 572) are separate steps.
-/

namespace Polling.AfdGroups
open AfdSpec

/-- iocp/mod.rs:549 -/
def AFD_MAX_SIZE : Nat := 32

/-- Where the thread that holds the mutex is. (iocp/mod.rs:553-594) -/
inductive Search where
  | none
  /-- line 555: top of the loop -/
  | look (t : Tid) (i : Nat)
  /-- line 572: `upgrade` is next -/
  | upgrade (t : Tid) (i : Nat)
deriving DecidableEq, Repr

/-- The list of weak references and the counts of what they refer to: iocp/mod.rs:86, 548-594. -/
structure S where
  /-- iocp/mod.rs:86 `afd` -/
  list : List Nat
  /-- strong counts -/
  count : Nat → Nat
  /-- names in use are below -/
  next : Nat
  search : Search

/-- iocp/mod.rs:143 -/
def init : S := ⟨[], fun _ => 0, 0, .none⟩

/-- `Weak::strong_count`, `Weak::upgrade` and the drop of an `Arc`: iocp/mod.rs:557, 572; the `Arc` is in the packet, iocp/mod.rs:1118. -/
def setCount (s : S) (a n : Nat) : S := { s with count := fun x => if x = a then n else s.count x }

/-- Steps: iocp/mod.rs:548-594; `release`: the drop of the `Arc` in the packet, iocp/mod.rs:1118. -/
inductive Act where
  /-- lines 553-554: a thread takes the mutex -/
  | start (t : Tid)
  /-- the next step of the search; `fault`: `Afd::new` (line 585) or `port.register` (line 588) fails -/
  | go (fault : Option Err)
  /-- the packet of a socket is dropped, or an `add` fails after line 202 -/
  | release (a : Nat)
deriving DecidableEq, Repr

/-- `Vec::swap_remove`, lines 562 and 577; the index is in bounds. (iocp/mod.rs:562, 577) -/
def remove (s : S) (i : Nat) : Option S := (PollB.swapRemove s.list i).map fun l => { s with list := l }

/-- The effect of a step and what is observed; `none`: not possible. (iocp/mod.rs:553-594) -/
def step (s : S) : Act → Option (S × AObs)
  | .start t =>
    match s.search with
    | .none => some ({ s with search := .look t 0 }, .search t)
    | _ => none
  | .go fault =>
    match s.search with
    | .none => none
    | .look t i =>
      match s.list[i]? with
      | some a =>
        -- lines 557-570
        if s.count a = 0 then (remove s i).map fun s => (s, .seen a 0)
        else if s.count a ≥ AFD_MAX_SIZE then some ({ s with search := .look t (i + 1) }, .seen a (s.count a))
        else some ({ s with search := .upgrade t i }, .seen a (s.count a))
      | none =>
        -- lines 584-593
        match fault with
        | some e => some ({ s with search := .none }, .failed t e)
        | none =>
          some ({ setCount s s.next 1 with list := s.list ++ [s.next], next := s.next + 1, search := .none }, .created t s.next)
    | .upgrade t i =>
      match s.list[i]? with
      | none => none  -- excluded: the index is in bounds
      | some a =>
        -- lines 572-579
        if s.count a = 0 then (remove s i).map fun s => ({ s with search := .look t i }, .tau)
        else some ({ setCount s a (s.count a + 1) with search := .none }, .acquired t a)
  | .release a => if s.count a > 0 then some (setCount s a (s.count a - 1), .released a) else none

/-- Reachable states with the trace that led to them. (plumbing of the model, no counterpart in the code) -/
inductive Reach : S → List AObs → Prop
  | init : Reach init []
  | step {s tr a s' o} : Reach s tr → step s a = some (s', o) → Reach s' (o :: tr)

/-- Run a list of steps. (plumbing of the model, no counterpart in the code) -/
def runActs (s : S) : List Act → Option (S × List AObs)
  | [] => some (s, [])
  | a :: as => (step s a).bind fun r => (runActs r.1 as).map fun q => (q.1, q.2 ++ [r.2])

end Polling.AfdGroups
