import Verif.Proof.TimeLemmas

/-! C11: no timeout value panics, fails or is misread.  (The conversions also give the rounding half of C09.) -/

namespace Polling.C11
open TimeSpec

/-- epoll without a timerfd: the millisecond argument is the least number of milliseconds covering a
non-zero `t`, or the largest argument if `t` is longer than that; never negative. -/
theorem epoll_ms_exact (t : Duration) (h0 : t.ns ≠ 0) :
    ∃ ms : Nat, epollTimeoutMs false (some t) = (ms : Int) ∧ ms ≤ 2147483647 ∧
      (IsCeilMs ms t.ns ∨ (ms = 2147483647 ∧ capI32Ns < t.ns)) := by
  refine ⟨_, epollMs_eq t h0, ?_⟩
  simp only [isCeilMs_iff, capI32Ns]
  omega

/-- poll: same, for the time remaining to the deadline (including zero). -/
theorem poll_ms_exact (t : Duration) :
    ∃ ms : Nat, pollTimeoutMs (some t) = (ms : Int) ∧ ms ≤ 2147483647 ∧
      (IsCeilMs ms t.ns ∨ (ms = 2147483647 ∧ capI32Ns < t.ns)) := by
  refine ⟨_, pollMs_eq t, ?_⟩
  simp only [isCeilMs_iff, capI32Ns]
  omega

/-- IOCP: the millisecond argument is the least number covering `t` if that is below `INFINITE`
(`u32::MAX`), and otherwise `INFINITE`; it always fits 32 bits. -/
theorem iocp_ms_exact (t : Duration) :
    iocpTimeoutMs (some t) ≤ 4294967295 ∧
    (iocpTimeoutMs (some t) < 4294967295 → IsCeilMs (iocpTimeoutMs (some t)) t.ns) ∧
    (iocpTimeoutMs (some t) = 4294967295 → ∀ m, IsCeilMs m t.ns → 4294967295 ≤ m) := by
  simp only [iocpTimeoutMs, dur2timeout_eq, isCeilMs_iff]
  refine ⟨?_, ?_, ?_⟩ <;> intros <;> omega

/-- A timeout handed to a backend by `Poller::wait` on Unix: the time from some clock reading to a deadline
that the platform's `Instant` can represent. -/
def FromDeadline (t : Duration) : Prop := ∃ deadline now, deadline ≤ unixMaxNs ∧ t = saturatingSince deadline now

/-- epoll with a timerfd: for every timeout that reaches the backend the `itimerspec` is valid
(`tv_sec ≥ 0`, `0 ≤ tv_nsec < 10^9`) and denotes exactly `t`; it is zero ("disarm") only for `t = 0`. -/
theorem timer_value_exact (t : Duration) (h : FromDeadline t) :
    0 ≤ (timerValue (some t)).1 ∧ 0 ≤ (timerValue (some t)).2 ∧ (timerValue (some t)).2 < 1000000000 ∧
    (timerValue (some t)).1 * 1000000000 + (timerValue (some t)).2 = (t.ns : Int) ∧
    (timerValue (some t) = (0, 0) ↔ t.ns = 0) := by
  obtain ⟨d, n, hd, rfl⟩ := h
  have hns : (saturatingSince d n).ns ≤ 2 ^ 63 * 10 ^ 9 - 1 := by
    simp only [saturatingSince, unixMaxNs] at *; omega
  generalize saturatingSince d n = t at *
  have hs : t.asSecs = t.ns / 1000000000 := rfl
  have hn : t.subsecNanos = t.ns % 1000000000 := rfl
  simp only [timerValue, u64AsI64, hs, hn, Prod.mk.injEq]
  rw [if_pos (by omega)]
  omega

/-- The deadline check in `Poller::wait` is what makes this true: the same conversion applied to an
unchecked `Duration` can produce a negative time. -/
theorem timer_value_needs_deadline_check : ∃ t : Duration, (timerValue (some t)).1 < 0 :=
  ⟨⟨2 ^ 63 * 10 ^ 9, by decide⟩, by decide⟩

/-- Deadline arithmetic: it never wraps; either the sum is exact and representable, or the call waits without
a deadline, and then the true deadline lies beyond what the clock can ever show. -/
theorem deadline_exact (maxNs now : Nat) (t : Duration) :
    (∀ d, instantCheckedAdd maxNs now t = some d → d = now + t.ns ∧ d ≤ maxNs) ∧
    (instantCheckedAdd maxNs now t = none → maxNs < now + t.ns) := by
  unfold instantCheckedAdd
  split <;> simp <;> omega

/-- Remaining time: zero once the deadline has passed, exact before it. -/
theorem remaining_exact (maxNs d now : Nat) (hm : maxNs < durLimit) (hd : d ≤ maxNs) :
    (saturatingSince d now).ns = d - now := by
  simp only [saturatingSince]; omega

example : unixMaxNs < durLimit ∧ windowsMaxNs < durLimit := by decide
example : (saturatingSince 7 5).ns = 2 ∧ (saturatingSince 5 7).ns = 0 := by decide
/-- Every timeout that fits before the end of the Unix clock does reach the backend. -/
example : FromDeadline ⟨5 * 10 ^ 9 + 1, by decide⟩ := ⟨5 * 10 ^ 9 + 4, 3, by decide, by decide⟩
example : timerValue (some ⟨5 * 10 ^ 9 + 1, by decide⟩) = (5, 1) := by decide
example : epollTimeoutMs false (some ⟨1, by decide⟩) = 1 := by decide
example : epollTimeoutMs false (some ⟨2147483647 * 10 ^ 6 + 1, by decide⟩) = 2147483647 := by decide
example : pollTimeoutMs (some ⟨1000001, by decide⟩) = 2 := by decide
example : iocpTimeoutMs (some ⟨durLimit - 1, by decide⟩) = 4294967295 := by decide

end Polling.C11
