import Verif.Model.Flags
import Verif.Spec.Flags
import Verif.Proof.FlagLemmas

/-!
C20: epoll, poll and event-port flags are translated faithfully.
-/

set_option linter.unusedSimpArgs false

namespace Polling.C20
open Polling.Spec

/-! ### epoll -/

/-- An epoll event is readable exactly if the kernel reported input, urgent input, error or hang-up. -/
theorem epoll_readable_iff (ev : Epoll.RawEvent) :
    (Epoll.toEvent ev).readable = true ↔
      Reported ev.flags cIn ∨ Reported ev.flags cPri ∨ Reported ev.flags cErr ∨ Reported ev.flags cHup := by
  show intersects ev.flags Epoll.readFlags = true ↔ _
  rw [intersects_mask _ _ _ epoll_readFlags_bits]
  simp only [Reported, cIn, cPri, cErr, cHup]
  constructor
  · rintro ⟨i, (rfl | rfl | rfl | rfl), h⟩ <;> simp [h]
  · rintro (h | h | h | h) <;> exact ⟨_, by simp, h⟩

/-- An epoll event is writable exactly if the kernel reported output, error or hang-up. -/
theorem epoll_writable_iff (ev : Epoll.RawEvent) :
    (Epoll.toEvent ev).writable = true ↔
      Reported ev.flags cOut ∨ Reported ev.flags cErr ∨ Reported ev.flags cHup := by
  show intersects ev.flags Epoll.writeFlags = true ↔ _
  rw [intersects_mask _ _ _ epoll_writeFlags_bits]
  simp only [Reported, cOut, cErr, cHup]
  constructor
  · rintro ⟨i, (rfl | rfl | rfl), h⟩ <;> simp [h]
  · rintro (h | h | h) <;> exact ⟨_, by simp, h⟩

/-- The word handed to `epoll_ctl`, condition by condition: what is asked of the kernel is exactly what
the interest and mode say, plus the extra conditions the user put into the event. -/
theorem epoll_asked_iff (ev : Event Epoll.EventExtra) (mode : PollMode) (c : Nat) (hc : c < 32) :
    Reported (Epoll.ctlFlags ev mode) c ↔
      (ev.readable = true ∧ (c = cIn ∨ c = cPri ∨ c = cErr ∨ c = cHup)) ∨
      (ev.writable = true ∧ (c = cOut ∨ c = cErr ∨ c = cHup)) ∨
      ((mode = .oneshot ∨ mode = .edgeOneshot) ∧ c = cOneshot) ∨
      ((mode = .edge ∨ mode = .edgeOneshot) ∧ c = cEt) ∨
      Reported ev.extra.flags c := by
  have hr := epoll_readFlags_bits c hc
  have hw := epoll_writeFlags_bits c hc
  have ho := epoll_oneshot_bit c hc
  have he := epoll_et_bit c hc
  unfold Reported Epoll.ctlFlags Epoll.epollFlags
  rw [BitVec.getLsbD_or]
  simp only [cIn, cPri, cErr, cHup, cOut, cOneshot, cEt]
  cases ev.readable <;> cases ev.writable <;> cases mode <;>
    simp only [if_true, if_false, Bool.false_eq_true, Epoll.modeFlags, BitVec.getLsbD_or, hr, hw, ho, he,
      BitVec.getLsbD_zero] <;> simp <;> grind

/-- Registering for readability (writability) makes the kernel wait for every condition that is later
reported as readable (writable). -/
theorem epoll_asks_for_what_it_reports (ev : Event Epoll.EventExtra) (mode : PollMode) (raw : Epoll.RawEvent) :
    (ev.readable = true → (Epoll.toEvent raw).readable = true →
      ∃ c, Reported raw.flags c ∧ Reported (Epoll.ctlFlags ev mode) c) ∧
    (ev.writable = true → (Epoll.toEvent raw).writable = true →
      ∃ c, Reported raw.flags c ∧ Reported (Epoll.ctlFlags ev mode) c) := by
  constructor
  · intro he hr
    rw [epoll_readable_iff] at hr
    rcases hr with h | h | h | h
    · exact ⟨cIn, h, (epoll_asked_iff _ _ _ (by decide)).2 (.inl ⟨he, by simp⟩)⟩
    · exact ⟨cPri, h, (epoll_asked_iff _ _ _ (by decide)).2 (.inl ⟨he, by simp⟩)⟩
    · exact ⟨cErr, h, (epoll_asked_iff _ _ _ (by decide)).2 (.inl ⟨he, by simp⟩)⟩
    · exact ⟨cHup, h, (epoll_asked_iff _ _ _ (by decide)).2 (.inl ⟨he, by simp⟩)⟩
  · intro he hr
    rw [epoll_writable_iff] at hr
    rcases hr with h | h | h
    · exact ⟨cOut, h, (epoll_asked_iff _ _ _ (by decide)).2 (.inr (.inl ⟨he, by simp⟩))⟩
    · exact ⟨cErr, h, (epoll_asked_iff _ _ _ (by decide)).2 (.inr (.inl ⟨he, by simp⟩))⟩
    · exact ⟨cHup, h, (epoll_asked_iff _ _ _ (by decide)).2 (.inr (.inl ⟨he, by simp⟩))⟩

/-- OS contract of epoll used here: only asked-for conditions, plus error and hang-up, are reported. -/
def EpollReportsOnlyAsked (asked : Epoll.Flags) (raw : Epoll.RawEvent) : Prop :=
  ∀ c, Reported raw.flags c → Reported asked c ∨ c = cErr ∨ c = cHup

/-- If only readability was asked for (and no extra conditions), an event that is reported writable
carries an error or a hang-up; if only writability was asked for, an event reported readable does. -/
theorem epoll_no_unasked_kind (ev : Event Epoll.EventExtra) (mode : PollMode) (raw : Epoll.RawEvent)
    (hx : ev.extra = Extra.empty) (hos : EpollReportsOnlyAsked (Epoll.ctlFlags ev mode) raw) :
    (ev.writable = false → (Epoll.toEvent raw).writable = true →
      Reported raw.flags cErr ∨ Reported raw.flags cHup) ∧
    (ev.readable = false → (Epoll.toEvent raw).readable = true →
      Reported raw.flags cErr ∨ Reported raw.flags cHup) := by
  have hx' : ev.extra.flags = 0#32 := by rw [hx]; rfl
  constructor
  · intro he hw
    rcases (epoll_writable_iff raw).1 hw with h | h | h
    · rcases hos _ h with h' | h' | h'
      · rw [epoll_asked_iff _ _ _ (by decide), hx'] at h'
        simp [he, cIn, cPri, cErr, cHup, cOut, cOneshot, cEt, Reported] at h'
      · simp [cOut, cErr] at h'
      · simp [cOut, cHup] at h'
    · exact .inl h
    · exact .inr h
  · intro he hw
    rcases (epoll_readable_iff raw).1 hw with h | h | h | h
    · rcases hos _ h with h' | h' | h'
      · rw [epoll_asked_iff _ _ _ (by decide), hx'] at h'
        simp [he, cIn, cPri, cErr, cHup, cOut, cOneshot, cEt, Reported] at h'
      · simp [cIn, cErr] at h'
      · simp [cIn, cHup] at h'
    · rcases hos _ h with h' | h' | h'
      · rw [epoll_asked_iff _ _ _ (by decide), hx'] at h'
        simp [he, cIn, cPri, cErr, cHup, cOut, cOneshot, cEt, Reported] at h'
      · simp [cPri, cErr] at h'
      · simp [cPri, cHup] at h'
    · exact .inl h
    · exact .inr h

/-- Non-vacuity: a read registration for which the kernel reports a hang-up is reported as writable. -/
example : let ev : Event Epoll.EventExtra := Event.onlyReadable 7
    let raw : Epoll.RawEvent := ⟨7#64, Epoll.HUP⟩
    ev.extra = Extra.empty ∧ EpollReportsOnlyAsked (Epoll.ctlFlags ev .level) raw ∧
      (Epoll.toEvent raw).writable = true := by
  refine ⟨rfl, ?_, by decide⟩
  intro c hc
  have h32 : c < 32 := BitVec.lt_of_getLsbD hc
  have := epoll_hup_bit c h32
  rw [Reported, show (⟨7#64, Epoll.HUP⟩ : Epoll.RawEvent).flags = Epoll.HUP from rfl, this] at hc
  right; right; simpa [cHup] using hc

/-! ### poll(2) -/

/-- A poll event is readable exactly if input, urgent input, error or hang-up was returned. -/
theorem poll_readable_iff (key : Key) (f : PollFlags.Flags) :
    (PollB.toEvent key f).readable = true ↔
      Reported f cIn ∨ Reported f cPri ∨ Reported f cErr ∨ Reported f cHup := by
  show intersects f PollB.readEvents = true ↔ _
  rw [intersects_mask _ _ _ poll_readEvents_bits]
  simp only [Reported, cIn, cPri, cErr, cHup]
  constructor
  · rintro ⟨i, (rfl | rfl | rfl | rfl), h⟩ <;> simp [h]
  · rintro (h | h | h | h) <;> exact ⟨_, by simp, h⟩

/-- A poll event is writable exactly if output, priority output, error or hang-up was returned. -/
theorem poll_writable_iff (key : Key) (f : PollFlags.Flags) :
    (PollB.toEvent key f).writable = true ↔
      Reported f cOut ∨ Reported f cWrband ∨ Reported f cErr ∨ Reported f cHup := by
  show intersects f PollB.writeEvents = true ↔ _
  rw [intersects_mask _ _ _ poll_writeEvents_bits]
  simp only [Reported, cOut, cWrband, cErr, cHup]
  constructor
  · rintro ⟨i, (rfl | rfl | rfl | rfl), h⟩ <;> simp [h]
  · rintro (h | h | h | h) <;> exact ⟨_, by simp, h⟩

/-- What poll(2) is asked for, condition by condition (error and hang-up are always reported by poll(2)). -/
theorem poll_asked_iff (ev : Event PollB.EventExtra) (c : Nat) (hc : c < 16) :
    Reported (PollB.pollEvents ev) c ↔
      (ev.readable = true ∧ (c = cIn ∨ c = cPri)) ∨ (ev.writable = true ∧ (c = cOut ∨ c = cWrband)) := by
  have h1 : ∀ i, i < 16 → (PollFlags.IN ||| PollFlags.PRI).getLsbD i = decide (i = 0 ∨ i = 1) := by decide
  have h2 : ∀ i, i < 16 → (PollFlags.OUT ||| PollFlags.WRBAND).getLsbD i = decide (i = 2 ∨ i = 9) := by decide
  unfold Reported PollB.pollEvents
  rw [BitVec.getLsbD_or]
  simp only [cIn, cPri, cOut, cWrband]
  cases ev.readable <;> cases ev.writable <;>
    simp only [if_true, if_false, h1 c hc, h2 c hc, BitVec.getLsbD_zero, Bool.false_eq_true] <;> simp

/-- A descriptor of which only one direction was asked for is reported for the other direction only
together with an error or hang-up. OS contract of poll(2): only asked-for conditions and ERR, HUP, NVAL. -/
theorem poll_no_unasked_kind (ev : Event PollB.EventExtra) (key : Key) (f : PollFlags.Flags)
    (hos : ∀ c, Reported f c → Reported (PollB.pollEvents ev) c ∨ c = cErr ∨ c = cHup ∨ c = cNval) :
    (ev.writable = false → (PollB.toEvent key f).writable = true → Reported f cErr ∨ Reported f cHup) ∧
    (ev.readable = false → (PollB.toEvent key f).readable = true → Reported f cErr ∨ Reported f cHup) := by
  constructor
  · intro he hw
    rcases (poll_writable_iff key f).1 hw with h | h | h | h
    · rcases hos _ h with h' | h' | h' | h'
      · rw [poll_asked_iff _ _ (by decide)] at h'
        simp [he, cIn, cPri, cOut, cWrband] at h'
      all_goals simp [cOut, cErr, cHup, cNval] at h'
    · rcases hos _ h with h' | h' | h' | h'
      · rw [poll_asked_iff _ _ (by decide)] at h'
        simp [he, cIn, cPri, cOut, cWrband] at h'
      all_goals simp [cWrband, cErr, cHup, cNval] at h'
    · exact .inl h
    · exact .inr h
  · intro he hw
    rcases (poll_readable_iff key f).1 hw with h | h | h | h
    · rcases hos _ h with h' | h' | h' | h'
      · rw [poll_asked_iff _ _ (by decide)] at h'
        simp [he, cIn, cPri, cOut, cWrband] at h'
      all_goals simp [cIn, cErr, cHup, cNval] at h'
    · rcases hos _ h with h' | h' | h' | h'
      · rw [poll_asked_iff _ _ (by decide)] at h'
        simp [he, cIn, cPri, cOut, cWrband] at h'
      all_goals simp [cPri, cErr, cHup, cNval] at h'
    · exact .inl h
    · exact .inr h

example : (PollB.toEvent 3 PollFlags.IN).readable = true ∧ (PollB.toEvent 3 PollFlags.IN).writable = false ∧
    Reported (PollB.pollEvents (Event.onlyReadable 3)) cIn := by decide

/-! ### event ports -/

/-- Event ports: readable exactly if input, urgent input, error or hang-up was reported. -/
theorem port_readable_iff (ev : Port.RawEvent) :
    (Port.toEvent ev).readable = true ↔
      Reported ev.events cIn ∨ Reported ev.events cPri ∨ Reported ev.events cErr ∨ Reported ev.events cHup := by
  show intersects (ev.events.setWidth 16 &&& Port.KNOWN) Port.readFlags = true ↔ _
  rw [intersects_mask _ _ _ port_readFlags_bits]
  simp only [Reported, cIn, cPri, cErr, cHup, BitVec.getLsbD_and, BitVec.getLsbD_setWidth]
  constructor
  · rintro ⟨i, (rfl | rfl | rfl | rfl), h⟩ <;> simp at h <;> simp [h]
  · rintro (h | h | h | h)
    · exact ⟨0, by simp, by simp [h]; decide⟩
    · exact ⟨1, by simp, by simp [h]; decide⟩
    · exact ⟨3, by simp, by simp [h]; decide⟩
    · exact ⟨4, by simp, by simp [h]; decide⟩

/-- Event ports: writable exactly if output, error or hang-up was reported. -/
theorem port_writable_iff (ev : Port.RawEvent) :
    (Port.toEvent ev).writable = true ↔
      Reported ev.events cOut ∨ Reported ev.events cErr ∨ Reported ev.events cHup := by
  show intersects (ev.events.setWidth 16 &&& Port.KNOWN) Port.writeFlags = true ↔ _
  rw [intersects_mask _ _ _ port_writeFlags_bits]
  simp only [Reported, cOut, cErr, cHup, BitVec.getLsbD_and, BitVec.getLsbD_setWidth]
  constructor
  · rintro ⟨i, (rfl | rfl | rfl), h⟩ <;> simp at h <;> simp [h]
  · rintro (h | h | h)
    · exact ⟨2, by simp, by simp [h]; decide⟩
    · exact ⟨3, by simp, by simp [h]; decide⟩
    · exact ⟨4, by simp, by simp [h]; decide⟩

/-- What `port_associate` is asked for, condition by condition. -/
theorem port_asked_iff (ev : Event Port.EventExtra) (c : Nat) (hc : c < 16) :
    Reported (Port.assocFlags ev) c ↔
      (ev.readable = true ∧ (c = cIn ∨ c = cPri ∨ c = cErr ∨ c = cHup)) ∨
      (ev.writable = true ∧ (c = cOut ∨ c = cErr ∨ c = cHup)) := by
  have hr := port_readFlags_bits c hc
  have hw := port_writeFlags_bits c hc
  unfold Reported Port.assocFlags
  simp only [cIn, cPri, cErr, cHup, cOut]
  cases ev.readable <;> cases ev.writable <;>
    simp only [if_true, if_false, BitVec.getLsbD_or, hr, hw, BitVec.getLsbD_zero, Bool.false_eq_true] <;> simp

/-- Event ports: with only one direction asked for, the other is reported only with error or hang-up. -/
theorem port_no_unasked_kind (ev : Event Port.EventExtra) (raw : Port.RawEvent)
    (hos : ∀ c, Reported raw.events c → Reported (Port.assocFlags ev) c ∨ c = cErr ∨ c = cHup) :
    (ev.writable = false → (Port.toEvent raw).writable = true →
      Reported raw.events cErr ∨ Reported raw.events cHup) ∧
    (ev.readable = false → (Port.toEvent raw).readable = true →
      Reported raw.events cErr ∨ Reported raw.events cHup) := by
  constructor
  · intro he hw
    rcases (port_writable_iff raw).1 hw with h | h | h
    · rcases hos _ h with h' | h' | h'
      · rw [port_asked_iff _ _ (by decide)] at h'
        simp [he, cIn, cPri, cErr, cHup, cOut] at h'
      all_goals simp [cOut, cErr, cHup] at h'
    · exact .inl h
    · exact .inr h
  · intro he hw
    rcases (port_readable_iff raw).1 hw with h | h | h | h
    · rcases hos _ h with h' | h' | h'
      · rw [port_asked_iff _ _ (by decide)] at h'
        simp [he, cIn, cPri, cErr, cHup, cOut] at h'
      all_goals simp [cIn, cErr, cHup] at h'
    · rcases hos _ h with h' | h' | h'
      · rw [port_asked_iff _ _ (by decide)] at h'
        simp [he, cIn, cPri, cErr, cHup, cOut] at h'
      all_goals simp [cPri, cErr, cHup] at h'
    · exact .inl h
    · exact .inr h

example : (Port.toEvent ⟨0x4#32, 9#64⟩).writable = true ∧ (Port.toEvent ⟨0x4#32, 9#64⟩).readable = false ∧
    (Port.toEvent ⟨0x4#32, 9#64⟩).key = 9#64 := by decide

end Polling.C20
