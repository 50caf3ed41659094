import Verif.Model.Flags
import Verif.Spec.Flags
import Verif.Props.C20

/-! C37: interrupt and priority interest is honoured. -/

namespace Polling.C37
open Polling.Spec

/-- epoll: with `with_priority()` / `with_interrupt()` the kernel is asked for that condition, whatever the
rest of the interest and the mode. -/
theorem epoll_honours_extra (e : Event Epoll.EventExtra) (mode : PollMode) :
    Reported (Epoll.ctlFlags e.withPriority mode) cPri ∧
    Reported (Epoll.ctlFlags e.withInterrupt mode) cHup := by
  constructor
  · rw [C20.epoll_asked_iff _ _ _ (by decide)]
    iterate 4 right
    show (setBit e.extra.flags Epoll.PRI true).getLsbD 1 = true
    rw [setBit_getLsbD _ _ _ _ (by decide), epoll_pri_bit 1 (by decide)]; rfl
  · rw [C20.epoll_asked_iff _ _ _ (by decide)]
    iterate 4 right
    show (setBit e.extra.flags Epoll.HUP true).getLsbD 4 = true
    rw [setBit_getLsbD _ _ _ _ (by decide), epoll_hup_bit 4 (by decide)]; rfl

/-- IOCP: with `with_priority()` / `with_interrupt()` AFD is asked for that condition. -/
theorem iocp_honours_extra (e : Event Iocp.EventExtra) (error : Bool) :
    Reported (Iocp.eventToAfdMask e.withPriority error) aReceiveExpedited ∧
    Reported (Iocp.eventToAfdMask e.withInterrupt error) aAbort := by
  constructor
  · show (_ ||| setBit e.extra.flags Iocp.RECEIVE_EXPEDITED true).getLsbD 1 = true
    rw [BitVec.getLsbD_or, setBit_getLsbD _ _ _ _ (by decide), afd_pri_bit 1 (by decide)]; simp
  · show (_ ||| setBit e.extra.flags Iocp.ABORT true).getLsbD 4 = true
    rw [BitVec.getLsbD_or, setBit_getLsbD _ _ _ _ (by decide), afd_abort_bit 4 (by decide)]; simp

/-- The full property for poll(2) and event ports. -/
def PollHonoursExtra : Prop :=
  ∀ e : Event PollB.EventExtra, Reported (PollB.pollEvents e.withPriority) cPri
/-- The full property for event ports. -/
def PortHonoursExtra : Prop :=
  ∀ e : Event Port.EventExtra, Reported (Port.assocFlags e.withPriority) cPri ∧
    Reported (Port.assocFlags e.withInterrupt) cHup

/-- poll(2) ignores the extra interest: an interest in priority events only asks for nothing. -/
theorem poll_ignores_priority : ¬ PollHonoursExtra := by
  intro h
  exact absurd (h (Event.none 1)) (by decide)

/-- Event ports ignore the extra interest, too. -/
theorem port_ignores_extra : ¬ PortHonoursExtra := by
  intro h
  exact absurd (h (Event.none 1)).1 (by decide)

/-- What remains true on poll(2): priority is asked for whenever readability is; hang-up is always reported
by the OS.  Missing for C37: priority interest without readability. -/
theorem poll_priority_partial (e : Event PollB.EventExtra) (hr : e.readable = true) :
    Reported (PollB.pollEvents e.withPriority) cPri := by
  rw [C20.poll_asked_iff _ _ (by decide)]
  exact .inl ⟨hr, .inr rfl⟩

/-- What remains true on event ports: both conditions are asked for whenever readability is, and hang-up
also whenever writability is.  Missing for C37: extra interest alone. -/
theorem port_extra_partial (e : Event Port.EventExtra) :
    (e.readable = true → Reported (Port.assocFlags e.withPriority) cPri) ∧
    (e.readable = true ∨ e.writable = true → Reported (Port.assocFlags e.withInterrupt) cHup) := by
  constructor
  · intro hr
    rw [C20.port_asked_iff _ _ (by decide)]
    exact .inl ⟨hr, by simp⟩
  · intro h
    rw [C20.port_asked_iff _ _ (by decide)]
    rcases h with h | h
    · exact .inl ⟨h, by simp⟩
    · exact .inr ⟨h, by simp⟩

/-- epoll: extra information of a received event that is passed back to `modify` stays part of the
interest: after `ev.readable = false; modify(fd, ev)` the kernel is still asked for input. -/
theorem epoll_received_event_keeps_interest :
    ∃ raw : Epoll.RawEvent, let ev := { Epoll.toEvent raw with readable := false }
      ev.writable = false ∧ Reported (Epoll.ctlFlags ev .oneshot) cIn :=
  ⟨⟨1#64, Epoll.IN⟩, by decide⟩

example : Reported (Epoll.ctlFlags (Event.none 4).withPriority .level) cPri := (epoll_honours_extra _ _).1

end Polling.C37
