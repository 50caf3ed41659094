import Verif.Proof.PollReach

/-!
C35 for the poll backend: however many calls are made, the channel never holds more than `2 n + 1` bytes for `n` threads.
-/

namespace Polling.C35
open PollP PollB PollFlags PollSpec

/-- In every reachable state, whether writes fail or not, at most `2 * threads + 1` bytes are unread. -/
theorem poll_channel_bounded {c s tr} (h : Reach c Any s tr) : s.chan ≤ 2 * c.threads + 1 := by
  have h1 := reach_Q h
  unfold Q at h1
  have h2 := cnt_le c.threads mPend s.pc
  omega

/-- Threads registering at the same time (between their write and their read) are the only reason for more than
`threads + 1`. -/
theorem poll_channel_bounded_quiet {c s tr} (h : Reach c Any s tr)
    (hq : ∀ t op, s.pc t ≠ .mLock op true ∧ s.pc t ≠ .mPop op) : s.chan ≤ c.threads + 1 := by
  have h1 := reach_Q h
  unfold Q at h1
  have h2 : cnt c.threads mPend s.pc = 0 := by
    rw [cnt_zero]
    intro t _
    have := hq t
    cases hp : s.pc t <;> simp_all [mPend]
  omega

/-- The channel does fill: after a notification and a registration in progress it holds two bytes. -/
example : ∃ s tr, Reach ⟨⟨3, 4, IN⟩, .pipe, 2⟩ Any s tr ∧ s.chan = 2 := by
  let c : Cfg := ⟨⟨3, 4, IN⟩, .pipe, 2⟩
  let acts : List (Nat × Act) := [(0, .notifyCas), (0, .notifySwap), (0, .notifyWrite true), (1, .callBegin (.delete 9)), (1, .callWrite true)]
  have h1 : ((runActs c (init c) acts).map fun r => r.1.chan) = some 2 := by decide +kernel
  obtain ⟨⟨s, tr⟩, h2, h3⟩ := Option.map_eq_some_iff.1 h1
  exact ⟨s, tr, by simpa using reach_run (P := Any) .init acts s tr (fun _ _ => trivial) h2, h3⟩

end Polling.C35
