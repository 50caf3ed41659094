import Verif.Model.Flags
import Verif.Spec.Flags
import Verif.Proof.FlagLemmas

/-! C42: error and connection-failure queries. -/

set_option linter.unusedSimpArgs false

namespace Polling.C42
open Polling.Spec

/-- `is_err` is `Some(true)` exactly if the OS flagged an error (AFD: connect failure) on the event;
it is unknown exactly on kqueue. -/
theorem is_err_iff :
    (∀ raw : Epoll.RawEvent, (Epoll.toEvent raw).isErr = some (decide (Reported raw.flags cErr))) ∧
    (∀ k (f : PollFlags.Flags), (PollB.toEvent k f).isErr = some (decide (Reported f cErr))) ∧
    (∀ raw : Port.RawEvent, (Port.toEvent raw).isErr = some (decide (Reported raw.events cErr))) ∧
    (∀ e : Event Iocp.EventExtra, e.isErr = some (decide (Reported e.extra.flags aConnectFail))) ∧
    (∀ e : Event Kqueue.EventExtra, e.isErr = none) := by
  refine ⟨fun raw => ?_, fun k f => ?_, fun raw => ?_, fun e => ?_, fun e => rfl⟩
  · show some (contains raw.flags Epoll.ERR) = _
    congr 1
    rw [Bool.eq_iff_iff, contains_single _ _ 3 (by decide) epoll_err_bit]
    simp [Reported, cErr]
  · show some (contains f PollFlags.ERR) = _
    congr 1
    rw [Bool.eq_iff_iff, contains_single _ _ 3 (by decide) poll_err_bit]
    simp [Reported, cErr]
  · show some (contains (raw.events.setWidth 16 &&& Port.KNOWN) PollFlags.ERR) = _
    congr 1
    rw [Bool.eq_iff_iff, contains_single _ _ 3 (by decide) poll_err_bit]
    have : Port.KNOWN.getLsbD 3 = true := by decide
    simp [Reported, cErr, BitVec.getLsbD_and, this]
  · show some (intersects e.extra.flags Iocp.CONNECT_FAIL) = _
    congr 1
    rw [Bool.eq_iff_iff, intersects_mask _ _ _ afd_cf_bit]
    simp [Reported, aConnectFail]

/-- The deprecated `is_connect_failed`, backend by backend: error AND hang-up on epoll and event ports,
error OR hang-up on poll, connect failure on IOCP, unknown on kqueue. -/
theorem is_connect_failed_iff :
    (∀ raw : Epoll.RawEvent, (Epoll.toEvent raw).isConnectFailed =
      some (decide (Reported raw.flags cErr ∧ Reported raw.flags cHup))) ∧
    (∀ k (f : PollFlags.Flags), (PollB.toEvent k f).isConnectFailed =
      some (decide (Reported f cErr ∨ Reported f cHup))) ∧
    (∀ raw : Port.RawEvent, (Port.toEvent raw).isConnectFailed =
      some (decide (Reported raw.events cErr ∧ Reported raw.events cHup))) ∧
    (∀ e : Event Iocp.EventExtra, e.isConnectFailed = some (decide (Reported e.extra.flags aConnectFail))) ∧
    (∀ e : Event Kqueue.EventExtra, e.isConnectFailed = none) := by
  refine ⟨fun raw => ?_, fun k f => ?_, fun raw => ?_, fun e => ?_, fun e => rfl⟩
  · show some (contains raw.flags Epoll.ERR && contains raw.flags Epoll.HUP) = _
    congr 1
    rw [Bool.eq_iff_iff, Bool.and_eq_true, contains_single _ _ 3 (by decide) epoll_err_bit,
      contains_single _ _ 4 (by decide) epoll_hup_bit]
    simp [Reported, cErr, cHup]
  · show some (contains f PollFlags.ERR || contains f PollFlags.HUP) = _
    congr 1
    rw [Bool.eq_iff_iff, Bool.or_eq_true, contains_single _ _ 3 (by decide) poll_err_bit,
      contains_single _ _ 4 (by decide) poll_hup_bit]
    simp [Reported, cErr, cHup]
  · show some (contains (raw.events.setWidth 16 &&& Port.KNOWN) PollFlags.ERR &&
      contains (raw.events.setWidth 16 &&& Port.KNOWN) PollFlags.HUP) = _
    congr 1
    rw [Bool.eq_iff_iff, Bool.and_eq_true, contains_single _ _ 3 (by decide) poll_err_bit,
      contains_single _ _ 4 (by decide) poll_hup_bit]
    have h3 : Port.KNOWN.getLsbD 3 = true := by decide
    have h4 : Port.KNOWN.getLsbD 4 = true := by decide
    simp [Reported, cErr, cHup, BitVec.getLsbD_and, h3, h4]
  · show some (intersects e.extra.flags Iocp.CONNECT_FAIL) = _
    congr 1
    rw [Bool.eq_iff_iff, intersects_mask _ _ _ afd_cf_bit]
    simp [Reported, aConnectFail]

/-- On every backend a positive `is_connect_failed` on an event implies that it is both readable and
writable: the user who only looks at `readable`/`writable` notices the failure (OS-reported events). -/
theorem connect_failed_is_readable_and_writable :
    (∀ raw : Epoll.RawEvent, (Epoll.toEvent raw).isConnectFailed = some true →
      (Epoll.toEvent raw).readable = true ∧ (Epoll.toEvent raw).writable = true) ∧
    (∀ k (f : PollFlags.Flags), (PollB.toEvent k f).isConnectFailed = some true →
      (PollB.toEvent k f).readable = true ∧ (PollB.toEvent k f).writable = true) ∧
    (∀ raw : Port.RawEvent, (Port.toEvent raw).isConnectFailed = some true →
      (Port.toEvent raw).readable = true ∧ (Port.toEvent raw).writable = true) ∧
    (∀ m : Iocp.Mask, intersects m Iocp.CONNECT_FAIL = true → Iocp.afdMaskToEvent m = (true, true)) := by
  refine ⟨fun raw h => ?_, fun k f h => ?_, fun raw h => ?_, fun m h => ?_⟩
  · rw [is_connect_failed_iff.1 raw] at h
    have h : Reported raw.flags cErr ∧ Reported raw.flags cHup := by simpa using h
    constructor
    · exact (intersects_mask _ _ _ epoll_readFlags_bits).2 ⟨3, by simp, h.1⟩
    · exact (intersects_mask _ _ _ epoll_writeFlags_bits).2 ⟨3, by simp, h.1⟩
  · rw [is_connect_failed_iff.2.1 k f] at h
    have h : Reported f cErr ∨ Reported f cHup := by simpa using h
    rcases h with h | h
    · exact ⟨(intersects_mask _ _ _ poll_readEvents_bits).2 ⟨3, by simp, h⟩,
        (intersects_mask _ _ _ poll_writeEvents_bits).2 ⟨3, by simp, h⟩⟩
    · exact ⟨(intersects_mask _ _ _ poll_readEvents_bits).2 ⟨4, by simp, h⟩,
        (intersects_mask _ _ _ poll_writeEvents_bits).2 ⟨4, by simp, h⟩⟩
  · rw [is_connect_failed_iff.2.2.1 raw] at h
    have h : Reported raw.events cErr ∧ Reported raw.events cHup := by simpa using h
    have h3 : Port.KNOWN.getLsbD 3 = true := by decide
    have hk : (raw.events.setWidth 16 &&& Port.KNOWN).getLsbD 3 = true := by
      have := h.1
      simp only [Reported, cErr] at this
      simp [BitVec.getLsbD_and, h3, this]
    exact ⟨(intersects_mask _ _ _ port_readFlags_bits).2 ⟨3, by simp, hk⟩, (intersects_mask _ _ _ port_writeFlags_bits).2 ⟨3, by simp, hk⟩⟩
  · have hb : ∀ i, i < 32 → (Iocp.ABORT ||| Iocp.CONNECT_FAIL).getLsbD i = decide (i = 4 ∨ i = 8) := by decide
    have h' : intersects m (Iocp.ABORT ||| Iocp.CONNECT_FAIL) = true := by
      rw [intersects_mask _ _ _ hb]
      rw [intersects_mask _ _ _ afd_cf_bit] at h
      obtain ⟨i, hi, hm⟩ := h
      exact ⟨i, .inr hi, hm⟩
    simp [Iocp.afdMaskToEvent, h']

/-- The documented conditions imply a positive `is_connect_failed`: on poll an error or a hang-up, on IOCP a failed connection; on epoll
and event ports only both together.  Missing for the full property: an error alone, or a hang-up alone, on those two, see
`epoll_is_connect_failed_doc_or_false` and `port_is_connect_failed_doc_or_false`. -/
theorem documented_connect_failed_partial :
    (∀ k (f : PollFlags.Flags), Reported f cErr ∨ Reported f cHup → (PollB.toEvent k f).isConnectFailed = some true) ∧
    (∀ e : Event Iocp.EventExtra, Reported e.extra.flags aConnectFail → e.isConnectFailed = some true) ∧
    (∀ raw : Epoll.RawEvent, Reported raw.flags cErr → Reported raw.flags cHup → (Epoll.toEvent raw).isConnectFailed = some true) ∧
    (∀ raw : Port.RawEvent, Reported raw.events cErr → Reported raw.events cHup → (Port.toEvent raw).isConnectFailed = some true) := by
  refine ⟨fun k f h => ?_, fun e h => ?_, fun raw h1 h2 => ?_, fun raw h1 h2 => ?_⟩
  · rw [is_connect_failed_iff.2.1 k f, decide_eq_true h]
  · rw [is_connect_failed_iff.2.2.2.1 e, decide_eq_true h]
  · rw [is_connect_failed_iff.1 raw, decide_eq_true ⟨h1, h2⟩]
  · rw [is_connect_failed_iff.2.2.1 raw, decide_eq_true ⟨h1, h2⟩]

/-- A reset connection on epoll (error and hang-up), a refused one on poll and IOCP: the hypotheses can be met. -/
example : Reported (Epoll.ERR ||| Epoll.HUP) cErr ∧ Reported (Epoll.ERR ||| Epoll.HUP) cHup ∧ Reported PollFlags.ERR cErr ∧
    Reported Iocp.CONNECT_FAIL aConnectFail := by decide

/-- The documentation says `is_connect_failed` corresponds to "`EPOLLERR` or `EPOLLHUP`"; on epoll it is
"and": an event with only an error is not reported as a connection failure. -/
theorem epoll_is_connect_failed_doc_or_false :
    ¬ (∀ raw : Epoll.RawEvent, (Epoll.toEvent raw).isConnectFailed =
      some (decide (Reported raw.flags cErr ∨ Reported raw.flags cHup))) := by
  intro h
  exact absurd (h ⟨1#64, Epoll.ERR⟩) (by decide)

/-- The same on event ports. -/
theorem port_is_connect_failed_doc_or_false :
    ¬ (∀ raw : Port.RawEvent, (Port.toEvent raw).isConnectFailed =
      some (decide (Reported raw.events cErr ∨ Reported raw.events cHup))) := by
  intro h
  exact absurd (h { userdata := 1#64, events := PollFlags.ERR.setWidth _ }) (by decide)

example : (PollB.toEvent 1 PollFlags.ERR).isConnectFailed = some true := by decide
example : (Epoll.toEvent ⟨1#64, Epoll.ERR ||| Epoll.HUP⟩).isErr = some true := by decide

end Polling.C42
