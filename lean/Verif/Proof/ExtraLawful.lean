import Verif.Model.Flags
import Verif.Spec.EventApi
import Verif.Proof.FlagLemmas

/-! The `EventExtra` of epoll, poll, event ports and IOCP satisfy the laws of independent booleans. -/

set_option linter.unusedSimpArgs false

namespace Polling.C36
open Polling.Spec

variable {X : Type} [Extra X]

/-- The algebraic laws that make an `EventExtra` behave like independent booleans. -/
structure Lawful (X : Type) [Extra X] : Prop where
  hup_hup : ∀ (x : X) b, Extra.isHup (Extra.setHup x b) = b
  hup_pri : ∀ (x : X) b, Extra.isHup (Extra.setPri x b) = Extra.isHup x
  pri_pri : ∀ (x : X) b, Extra.isPri (Extra.setPri x b) = b
  pri_hup : ∀ (x : X) b, Extra.isPri (Extra.setHup x b) = Extra.isPri x
  err_hup : ∀ (x : X) b, Extra.isErr (Extra.setHup x b) = Extra.isErr x
  err_pri : ∀ (x : X) b, Extra.isErr (Extra.setPri x b) = Extra.isErr x
  hup_empty : Extra.isHup (Extra.empty : X) = false
  pri_empty : Extra.isPri (Extra.empty : X) = false
  err_empty : Extra.isErr (Extra.empty : X) = some false

theorem view_calls (h : Lawful X) (e : Event X) (cs : List SetCall) :
    view (cs.foldl call e) = cs.foldl View.apply (view e) := by
  induction cs generalizing e with
  | nil => rfl
  | cons c cs ih =>
    simp only [List.foldl_cons]
    rw [ih]
    congr 1
    cases c <;>
      simp [view, call, View.apply, Event.setInterrupt, Event.withInterrupt, Event.setPriority, Event.withPriority, Event.clearExtra, Event.withNoExtra,
        Event.isInterrupt, Event.isPriority, Event.isErr, h.hup_hup, h.hup_pri, h.pri_pri, h.pri_hup,
        h.err_hup, h.err_pri, h.hup_empty, h.pri_empty, h.err_empty]

theorem setBit_contains {n : Nat} (f b : BitVec n) (v : Bool) (k : Nat) (hk : k < n)
    (hb : ∀ i, i < n → b.getLsbD i = decide (i = k)) : contains (setBit f b v) b = v := by
  rw [Bool.eq_iff_iff, contains_single _ _ k hk hb, setBit_getLsbD _ _ _ _ hk, hb k hk]; simp

theorem setBit_contains_other {n : Nat} (f b b' : BitVec n) (v : Bool) (k k' : Nat) (hk' : k' < n)
    (hne : k ≠ k') (hb : ∀ i, i < n → b.getLsbD i = decide (i = k))
    (hb' : ∀ i, i < n → b'.getLsbD i = decide (i = k')) :
    contains (setBit f b v) b' = contains f b' := by
  rw [Bool.eq_iff_iff, contains_single _ _ k' hk' hb', contains_single _ _ k' hk' hb',
    setBit_getLsbD _ _ _ _ hk', hb k' hk']
  simp [Ne.symm hne]

theorem intersects_eq_contains {n : Nat} (f b : BitVec n) (k : Nat) (hk : k < n)
    (hb : ∀ i, i < n → b.getLsbD i = decide (i = k)) : intersects f b = contains f b := by
  rw [Bool.eq_iff_iff, contains_single _ _ k hk hb, intersects_mask _ _ _ hb]
  simp

theorem epoll_lawful : Lawful Epoll.EventExtra where
  hup_hup x b := setBit_contains _ _ _ 4 (by decide) epoll_hup_bit
  hup_pri x b := setBit_contains_other _ _ _ _ 1 4 (by decide) (by decide) epoll_pri_bit epoll_hup_bit
  pri_pri x b := setBit_contains _ _ _ 1 (by decide) epoll_pri_bit
  pri_hup x b := setBit_contains_other _ _ _ _ 4 1 (by decide) (by decide) epoll_hup_bit epoll_pri_bit
  err_hup x b := congrArg some
    (setBit_contains_other _ _ _ _ 4 3 (by decide) (by decide) epoll_hup_bit epoll_err_bit)
  err_pri x b := congrArg some
    (setBit_contains_other _ _ _ _ 1 3 (by decide) (by decide) epoll_pri_bit epoll_err_bit)
  hup_empty := rfl
  pri_empty := rfl
  err_empty := rfl

theorem poll_lawful : Lawful PollB.EventExtra where
  hup_hup x b := setBit_contains _ _ _ 4 (by decide) poll_hup_bit
  hup_pri x b := setBit_contains_other _ _ _ _ 1 4 (by decide) (by decide) poll_pri_bit poll_hup_bit
  pri_pri x b := setBit_contains _ _ _ 1 (by decide) poll_pri_bit
  pri_hup x b := setBit_contains_other _ _ _ _ 4 1 (by decide) (by decide) poll_hup_bit poll_pri_bit
  err_hup x b := congrArg some
    (setBit_contains_other _ _ _ _ 4 3 (by decide) (by decide) poll_hup_bit poll_err_bit)
  err_pri x b := congrArg some
    (setBit_contains_other _ _ _ _ 1 3 (by decide) (by decide) poll_pri_bit poll_err_bit)
  hup_empty := rfl
  pri_empty := rfl
  err_empty := rfl

theorem port_lawful : Lawful Port.EventExtra where
  hup_hup x b := setBit_contains _ _ _ 4 (by decide) poll_hup_bit
  hup_pri x b := setBit_contains_other _ _ _ _ 1 4 (by decide) (by decide) poll_pri_bit poll_hup_bit
  pri_pri x b := setBit_contains _ _ _ 1 (by decide) poll_pri_bit
  pri_hup x b := setBit_contains_other _ _ _ _ 4 1 (by decide) (by decide) poll_hup_bit poll_pri_bit
  err_hup x b := congrArg some
    (setBit_contains_other _ _ _ _ 4 3 (by decide) (by decide) poll_hup_bit poll_err_bit)
  err_pri x b := congrArg some
    (setBit_contains_other _ _ _ _ 1 3 (by decide) (by decide) poll_pri_bit poll_err_bit)
  hup_empty := rfl
  pri_empty := rfl
  err_empty := rfl

theorem iocp_lawful : Lawful Iocp.EventExtra where
  hup_hup x b := by
    show intersects (setBit _ _ _) Iocp.ABORT = _
    rw [intersects_eq_contains _ _ 4 (by decide) afd_abort_bit, setBit_contains _ _ _ 4 (by decide) afd_abort_bit]
  hup_pri x b := by
    show intersects (setBit _ _ _) Iocp.ABORT = intersects _ _
    rw [intersects_eq_contains _ _ 4 (by decide) afd_abort_bit, intersects_eq_contains _ _ 4 (by decide) afd_abort_bit,
      setBit_contains_other _ _ _ _ 1 4 (by decide) (by decide) afd_pri_bit afd_abort_bit]
  pri_pri x b := by
    show intersects (setBit _ _ _) Iocp.RECEIVE_EXPEDITED = _
    rw [intersects_eq_contains _ _ 1 (by decide) afd_pri_bit, setBit_contains _ _ _ 1 (by decide) afd_pri_bit]
  pri_hup x b := by
    show intersects (setBit _ _ _) Iocp.RECEIVE_EXPEDITED = intersects _ _
    rw [intersects_eq_contains _ _ 1 (by decide) afd_pri_bit, intersects_eq_contains _ _ 1 (by decide) afd_pri_bit,
      setBit_contains_other _ _ _ _ 4 1 (by decide) (by decide) afd_abort_bit afd_pri_bit]
  err_hup x b := by
    show some (intersects (setBit _ _ _) Iocp.CONNECT_FAIL) = some (intersects _ _)
    rw [intersects_eq_contains _ _ 8 (by decide) afd_cf_bit, intersects_eq_contains _ _ 8 (by decide) afd_cf_bit,
      setBit_contains_other _ _ _ _ 4 8 (by decide) (by decide) afd_abort_bit afd_cf_bit]
  err_pri x b := by
    show some (intersects (setBit _ _ _) Iocp.CONNECT_FAIL) = some (intersects _ _)
    rw [intersects_eq_contains _ _ 8 (by decide) afd_cf_bit, intersects_eq_contains _ _ 8 (by decide) afd_cf_bit,
      setBit_contains_other _ _ _ _ 1 8 (by decide) (by decide) afd_pri_bit afd_cf_bit]
  hup_empty := rfl
  pri_empty := rfl
  err_empty := rfl

end Polling.C36
