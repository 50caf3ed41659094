import Verif.Proof.ExtraLawful

/-! C36: extra event information obeys its setters and getters. -/

namespace Polling.C36
open Polling.Spec

variable {X : Type} [Extra X]

/-- C36, supporting backends: after any sequence of setter calls on any event (also one received from the
OS), everything the API shows is what the plain-record specification says. -/
theorem setters_getters :
    (∀ (e : Event Epoll.EventExtra) (cs : List SetCall), view (cs.foldl call e) = cs.foldl View.apply (view e)) ∧
    (∀ (e : Event PollB.EventExtra) (cs : List SetCall), view (cs.foldl call e) = cs.foldl View.apply (view e)) ∧
    (∀ (e : Event Port.EventExtra) (cs : List SetCall), view (cs.foldl call e) = cs.foldl View.apply (view e)) ∧
    (∀ (e : Event Iocp.EventExtra) (cs : List SetCall), view (cs.foldl call e) = cs.foldl View.apply (view e)) :=
  ⟨view_calls epoll_lawful, view_calls poll_lawful, view_calls port_lawful, view_calls iocp_lawful⟩

/-- C36, kqueue: setters change nothing visible, the two flags always read false, errors are unknown. -/
theorem kqueue_setters_noop (e : Event Kqueue.EventExtra) (cs : List SetCall) :
    cs.foldl call e = e ∧ e.isInterrupt = false ∧ e.isPriority = false ∧ e.isErr = none := by
  refine ⟨?_, rfl, rfl, rfl⟩
  induction cs with
  | nil => rfl
  | cons c cs ih =>
    have : call e c = e := by
      rcases e with ⟨k, r, w, ⟨⟩⟩
      cases c <;> rfl
    simp only [List.foldl_cons, this, ih]

/-- The constructors give exactly the requested fields and nothing extra. -/
def ConstructorsExact (X : Type) [Extra X] : Prop := ∀ (k : Key) (r w : Bool),
    view (Event.new k r w : Event X) = ⟨k, r, w, false, false, some false⟩ ∧
    view (Event.all k : Event X) = ⟨k, true, true, false, false, some false⟩ ∧
    view (Event.onlyReadable k : Event X) = ⟨k, true, false, false, false, some false⟩ ∧
    view (Event.onlyWritable k : Event X) = ⟨k, false, true, false, false, some false⟩ ∧
    view (Event.none k : Event X) = ⟨k, false, false, false, false, some false⟩

theorem constructors_of_lawful (h : Lawful X) : ConstructorsExact X := by
  intro k r w
  simp [view, Event.new, Event.all, Event.onlyReadable, Event.onlyWritable, Event.none, Event.isInterrupt,
    Event.isPriority, Event.isErr, h.hup_empty, h.pri_empty, h.err_empty]

/-- C36, constructors, on the four backends that carry extra information. -/
theorem constructors : ConstructorsExact Epoll.EventExtra ∧ ConstructorsExact PollB.EventExtra ∧
    ConstructorsExact Port.EventExtra ∧ ConstructorsExact Iocp.EventExtra :=
  ⟨constructors_of_lawful epoll_lawful, constructors_of_lawful poll_lawful,
    constructors_of_lawful port_lawful, constructors_of_lawful iocp_lawful⟩

/-- C36: `with_no_extra` makes `==` compare exactly key, readable and writable, on every backend. -/
theorem with_no_extra_eq (e e' : Event X) :
    e.withNoExtra = e'.withNoExtra ↔ e.key = e'.key ∧ e.readable = e'.readable ∧ e.writable = e'.writable := by
  rcases e with ⟨k, r, w, x⟩; rcases e' with ⟨k', r', w', x'⟩
  simp [Event.withNoExtra, Event.clearExtra]

/-- Non-trivial instance: an event received with a hang-up, then modified. -/
example : view ([SetCall.interrupt false, .withPriority].foldl call (Epoll.toEvent ⟨5#64, 0x1D#32⟩)) =
    ⟨5#64, true, true, false, true, some true⟩ := by decide

end Polling.C36
