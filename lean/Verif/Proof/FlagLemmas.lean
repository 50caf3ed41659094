import Verif.Model.Flags
import Verif.Proof.Bits

/-! Masks of the backends, bit by bit. -/

namespace Polling

theorem epoll_readFlags_bits : ∀ i, i < 32 → Epoll.readFlags.getLsbD i = decide (i = 0 ∨ i = 1 ∨ i = 3 ∨ i = 4) := by
  decide
theorem epoll_writeFlags_bits : ∀ i, i < 32 → Epoll.writeFlags.getLsbD i = decide (i = 2 ∨ i = 3 ∨ i = 4) := by
  decide
theorem poll_readEvents_bits : ∀ i, i < 16 → PollB.readEvents.getLsbD i = decide (i = 0 ∨ i = 1 ∨ i = 3 ∨ i = 4) := by
  decide
theorem poll_writeEvents_bits :
    ∀ i, i < 16 → PollB.writeEvents.getLsbD i = decide (i = 2 ∨ i = 9 ∨ i = 3 ∨ i = 4) := by
  decide
theorem port_readFlags_bits : ∀ i, i < 16 → Port.readFlags.getLsbD i = decide (i = 0 ∨ i = 1 ∨ i = 3 ∨ i = 4) := by
  decide
theorem port_writeFlags_bits : ∀ i, i < 16 → Port.writeFlags.getLsbD i = decide (i = 2 ∨ i = 3 ∨ i = 4) := by
  decide

theorem intersects_mask {n : Nat} (f m : BitVec n) (p : Nat → Prop) [DecidablePred p]
    (hm : ∀ i, i < n → m.getLsbD i = decide (p i)) :
    intersects f m = true ↔ ∃ i, p i ∧ f.getLsbD i = true := by
  rw [intersects_iff]
  constructor
  · rintro ⟨i, hi, hf, hmi⟩
    rw [hm i hi] at hmi
    exact ⟨i, by simpa using hmi, hf⟩
  · rintro ⟨i, hp, hf⟩
    have hi := BitVec.lt_of_getLsbD hf
    exact ⟨i, hi, hf, by rw [hm i hi]; simpa using hp⟩

theorem contains_single {n : Nat} (f m : BitVec n) (k : Nat) (hk : k < n)
    (hm : ∀ i, i < n → m.getLsbD i = decide (i = k)) :
    contains f m = true ↔ f.getLsbD k = true := by
  rw [contains_iff]
  constructor
  · intro h
    exact h k hk (by rw [hm k hk]; simp)
  · intro h i hi hmi
    rw [hm i hi] at hmi
    have : i = k := by simpa using hmi
    rw [this]; exact h

theorem epoll_hup_bit : ∀ i, i < 32 → Epoll.HUP.getLsbD i = decide (i = 4) := by decide
theorem epoll_pri_bit : ∀ i, i < 32 → Epoll.PRI.getLsbD i = decide (i = 1) := by decide
theorem epoll_err_bit : ∀ i, i < 32 → Epoll.ERR.getLsbD i = decide (i = 3) := by decide
theorem epoll_oneshot_bit : ∀ i, i < 32 → Epoll.ONESHOT.getLsbD i = decide (i = 30) := by decide
theorem epoll_et_bit : ∀ i, i < 32 → Epoll.ET.getLsbD i = decide (i = 31) := by decide
theorem poll_hup_bit : ∀ i, i < 16 → PollFlags.HUP.getLsbD i = decide (i = 4) := by decide
theorem poll_pri_bit : ∀ i, i < 16 → PollFlags.PRI.getLsbD i = decide (i = 1) := by decide
theorem poll_err_bit : ∀ i, i < 16 → PollFlags.ERR.getLsbD i = decide (i = 3) := by decide
theorem afd_abort_bit : ∀ i, i < 32 → Iocp.ABORT.getLsbD i = decide (i = 4) := by decide
theorem afd_pri_bit : ∀ i, i < 32 → Iocp.RECEIVE_EXPEDITED.getLsbD i = decide (i = 1) := by decide
theorem afd_cf_bit : ∀ i, i < 32 → Iocp.CONNECT_FAIL.getLsbD i = decide (i = 8) := by decide
theorem afd_lc_bit : ∀ i, i < 32 → Iocp.LOCAL_CLOSE.getLsbD i = decide (i = 5) := by decide

end Polling
