import Verif.Props.C09

/-! C59: a timeout ends the wait.

The other half of `C09`: a `wait(Some(t))` returns (with whatever result) no later than `t` after it began, up to the rounding of the
timeout to milliseconds and the time the calls themselves take.  `ε` bounds how long an OS call takes beyond the time it was asked to
block, and how long the other steps of the code take. -/

namespace Polling.C59
open Timing TimeSpec C09

/-- A clock reading takes no longer than `ε`. -/
def ClockPrompt (wd : World) (ε : Nat) : Prop := ∀ w, wd.time (wd.clock w).2 ≤ wd.time w + ε

/-- The most a timeout of `n` becomes when it is rounded up by less than `gran + 1`; zero stays zero. -/
def up (gran n : Nat) : Nat := if n = 0 then 0 else n + gran

/-- A (backend) wait that ends in time when it is given at most `cap`: no later than the rounded timeout, and `slack`. -/
structure Prompt (wd : World) (gran cap slack : Nat)
    (wait : wd.W → wd.Buf → Option Duration → Option (Ret × wd.W × wd.Buf)) : Prop where
  mono : ∀ w buf t r w' buf', wait w buf t = some (r, w', buf') → wd.time w ≤ wd.time w'
  ends : ∀ w buf d r w' buf', d.ns ≤ cap → wait w buf (some d) = some (r, w', buf') →
    wd.time w' ≤ wd.time w + up gran d.ns + slack

/-- By when a loop with the deadline `d` should end if it is at time `now`. -/
def goal (d gran now : Nat) : Nat := if d ≤ now then now else d + gran

theorem goal_step {d gran a b : Nat} {s : Nat} (h1 : a ≤ b) (h2 : b ≤ goal d gran a + s) : goal d gran b ≤ goal d gran a + s := by
  unfold goal at *
  split at h2 <;> split <;> omega

/-- One call with what is left of the time to `d`. -/
theorem round_ends {d gran tw now e x : Nat} (h1 : tw ≤ now) (h2 : e ≤ tw + x + up gran (d - now)) : e ≤ goal d gran tw + x := by
  unfold up at h2
  unfold goal
  split at h2 <;> split <;> omega

theorem remaining_prompt {wd : World} {ε} (hp : ClockPrompt wd ε) (deadline : Option Nat) (w : wd.W) :
    wd.time (readRemaining wd deadline w).2 ≤ wd.time w + ε := by
  cases deadline with
  | none => simp [readRemaining]
  | some d => exact hp w

theorem libLoop_prompt {wd : World} {sysWait clear maxNs gran cap slack ε} (hmax : maxNs < durLimit) (hc : ClockOk wd)
    (hp : ClockPrompt wd ε) (hb : Prompt wd gran cap slack sysWait) (d : Nat) (hd : d ≤ maxNs)
    (fuel : Nat) (w : wd.W) (hcap : d ≤ wd.time w + cap) (buf : wd.Buf) (r : Ret) (w' : wd.W) (buf' : wd.Buf)
    (h : libLoop wd sysWait clear (some d) fuel w buf = some (r, w', buf')) :
    wd.time w ≤ wd.time w' ∧ wd.time w' ≤ goal d gran (wd.time w) + fuel * (ε + slack) := by
  induction fuel generalizing w buf with
  | zero => simp [libLoop] at h
  | succ n ih =>
    unfold libLoop at h
    obtain ⟨hw₁, ht⟩ := remaining_facts hc hmax (some d) (by rintro _ ⟨⟩; exact hd) w
    have hw₁' := remaining_prompt hp (some d) w
    obtain ⟨rem, hrem⟩ : ∃ rem, (readRemaining wd (some d) w).1 = some rem := ⟨_, rfl⟩
    rw [hrem] at h ht
    generalize (readRemaining wd (some d) w).2 = w₁ at *
    obtain ⟨_, now, ⟨⟩, hns, hn1, hn2⟩ := ht rem rfl
    have hmul : (n + 1) * (ε + slack) = n * (ε + slack) + (ε + slack) := Nat.succ_mul _ _
    have hone : ∀ r₂ w₂ b₂, sysWait w₁ buf (some rem) = some (r₂, w₂, b₂) →
        wd.time w ≤ wd.time w₂ ∧ wd.time w₂ ≤ goal d gran (wd.time w) + (ε + slack) := by
      intro r₂ w₂ b₂ he
      have h1 := hb.mono _ _ _ _ _ _ he
      have h2 := hb.ends _ _ _ _ _ _ (by omega) he
      rw [hns] at h2
      exact ⟨by omega, round_ends hn2 (by omega)⟩
    split at h
    · cases h
    · next e w₂ b₂ heq =>
      obtain ⟨h1, h2⟩ := hone _ _ _ heq
      split at h
      · obtain ⟨h3, h4⟩ := ih w₂ (by omega) _ h
        have := goal_step h1 h2
        exact ⟨by omega, by rw [hmul]; omega⟩
      · cases h
        exact ⟨h1, by rw [hmul]; omega⟩
    · next r₂ hne heq =>
      obtain rfl := Option.some.inj h
      obtain ⟨h1, h2⟩ := hone _ _ _ heq
      exact ⟨h1, by rw [hmul]; omega⟩

theorem deadline_some {wd : World} {maxNs : Nat} {t : Duration} {w : wd.W} (hrep : (wd.clock w).1 + t.ns ≤ maxNs) :
    readDeadline wd maxNs (some t) w = (some ((wd.clock w).1 + t.ns), (wd.clock w).2) := by
  simp only [readDeadline, instantCheckedAdd]; rw [if_pos hrep]

theorem goal_begin {gran now tw tw' t ε : Nat} (h1 : now ≤ tw') (h3 : tw' ≤ tw + ε) :
    goal (now + t) gran tw' ≤ tw + up gran t + ε := by
  unfold goal up
  split <;> split <;> omega

/-- The public `wait(Some(t))` ends in time if the backend's does: when it returns after `fuel` rounds at most (that is, after fewer
than `fuel` interruptions), at most `t`, rounded up, has passed, and what the rounds themselves take. -/
theorem wait_ends {wd : World} {sysWait clear maxNs gran cap slack ε} (fuel : Nat) (hmax : maxNs < durLimit) (hc : ClockOk wd)
    (hp : ClockPrompt wd ε) (hb : Prompt wd gran cap slack sysWait) (w : wd.W) (buf : wd.Buf) (t : Duration)
    (hrep : (wd.clock w).1 + t.ns ≤ maxNs) (hcap : t.ns ≤ cap) (r : Ret) (w' : wd.W) (buf' : wd.Buf)
    (h : libWait wd sysWait clear maxNs fuel w buf (some t) = some (r, w', buf')) :
    wd.time w' ≤ wd.time w + up gran t.ns + ε + fuel * (ε + slack) := by
  unfold libWait at h
  rw [deadline_some hrep] at h
  have hk := hc w
  have hk' := hp w
  have h1 := libLoop_prompt hmax hc hp hb _ hrep fuel _ (by simp only; omega) _ _ _ _ h
  have h2 := goal_begin (gran := gran) (t := t.ns) hk.2 hk'
  simp only at h1
  omega

/-! ### Backends -/

/-- OS contract: the calls of the epoll backend are prompt, and a timer that was set fires in time. -/
structure EpollPrompt {wd : World} (os : EpollOs wd) (ε : Nat) : Prop where
  settime_quick : ∀ w v, wd.time (os.settime w v).2 ≤ wd.time w + ε
  /-- a timer set to `v ≠ 0` becomes readable no later than `v` after the call -/
  settime_sets : os.hasTimerFd = true → ∀ w v w', os.settime w v = (.ok, w') → v ≠ (0, 0) → 0 ≤ v.1 → 0 ≤ v.2 → ∃ T, os.timer w' = some T ∧
    (T : Int) ≤ wd.time w' + (v.1 * 1000000000 + v.2)
  finish_quick : ∀ w, wd.time (os.finish w).2 ≤ wd.time w + ε
  /-- `epoll_wait` does not outstay its own limit -/
  epoll_limit : ∀ w b ms, 0 ≤ ms → (wd.time (os.epoll w b ms).2.1 : Int) ≤ wd.time w + ms * 1000000 + ε
  /-- nor the timerfd -/
  epoll_timer : ∀ w b ms T, os.timer w = some T → wd.time (os.epoll w b ms).2.1 ≤ max (wd.time w) T + ε

theorem epollTail {wd : World} {os : EpollOs wd} {ε} (hp : EpollPrompt os ε) {re : Ret} {w₂ : wd.W} {b₂ : wd.Buf} {r w' buf'}
    (h : (match ((re, w₂, b₂) : Ret × wd.W × wd.Buf) with
      | (.err e, w, buf) => (Ret.err e, w, buf)
      | (ret, w, buf) => match os.finish w with
        | (.err e, w) => (.err e, w, buf)
        | (.ok, w) => (ret, w, buf)) = (r, w', buf')) :
    wd.time w₂ ≤ wd.time w' ∧ wd.time w' ≤ wd.time w₂ + ε := by
  have h1 := os.finish_mono w₂
  have h2 := hp.finish_quick w₂
  rcases hf : os.finish w₂ with ⟨rf, w₃⟩
  rw [hf] at h1 h2
  simp only at h1 h2
  cases re with
  | err e => simp only [Prod.mk.injEq] at h; obtain ⟨_, rfl, _⟩ := h; omega
  | _ => simp only [hf] at h; cases rf <;> (simp only [Prod.mk.injEq] at h; obtain ⟨_, rfl, _⟩ := h; omega)

theorem epollWait_inv {wd : World} (os : EpollOs wd) (w : wd.W) (buf : wd.Buf) (t : Option Duration) (r w' buf') {ε}
    (hp : EpollPrompt os ε) (h : epollWait wd os.hasTimerFd os.settime os.epoll os.finish w buf t = (r, w', buf')) :
    (wd.time w ≤ wd.time w' ∧ wd.time w' ≤ wd.time w + ε) ∨
    ∃ w₁, (if os.hasTimerFd then os.settime w (timerValue t) else (Res.ok, w)) = (.ok, w₁) ∧ wd.time w ≤ wd.time w₁ ∧
      wd.time w₁ ≤ wd.time w + ε ∧
      wd.time (os.epoll w₁ buf (epollTimeoutMs os.hasTimerFd t)).2.1 ≤ wd.time w' ∧
      wd.time w' ≤ wd.time (os.epoll w₁ buf (epollTimeoutMs os.hasTimerFd t)).2.1 + ε := by
  unfold epollWait at h
  have hq : ∀ rs w₁, (if os.hasTimerFd then os.settime w (timerValue t) else (Res.ok, w)) = (rs, w₁) →
      wd.time w ≤ wd.time w₁ ∧ wd.time w₁ ≤ wd.time w + ε := by
    intro rs w₁ he
    have h1 := os.settime_mono w (timerValue t)
    have h2 := hp.settime_quick w (timerValue t)
    split at he
    · rw [he] at h1 h2; exact ⟨h1, h2⟩
    · cases he; omega
  rcases hs : (if os.hasTimerFd then os.settime w (timerValue t) else (Res.ok, w)) with ⟨rs, w₁⟩
  have h1 := hq _ _ hs
  simp only [hs] at h
  cases rs with
  | err e => simp only [Prod.mk.injEq] at h; obtain ⟨_, rfl, _⟩ := h; exact .inl h1
  | ok =>
    refine .inr ⟨w₁, rfl, h1.1, h1.2, ?_⟩
    simp only at h
    rcases he : os.epoll w₁ buf (epollTimeoutMs os.hasTimerFd t) with ⟨re, w₂, b₂⟩
    rw [he] at h
    exact epollTail hp h

theorem epoll_mono' {wd : World} (os : EpollOs wd) {ε} (hp : EpollPrompt os ε) (w : wd.W) (buf t r w' buf')
    (h : some (epollWait wd os.hasTimerFd os.settime os.epoll os.finish w buf t) = some (r, w', buf')) : wd.time w ≤ wd.time w' := by
  rcases epollWait_inv os w buf t r w' buf' hp (Option.some.inj h) with h1 | ⟨w₁, _, h1, _, h2, _⟩
  · exact h1.1
  · have := os.epoll_mono w₁ buf (epollTimeoutMs os.hasTimerFd t)
    omega

/-- epoll with a timerfd ends in time, to the nanosecond. -/
theorem epoll_timerfd_prompt {wd : World} (os : EpollOs wd) (htf : os.hasTimerFd = true) {ε} (hp : EpollPrompt os ε) :
    Prompt wd 0 unixMaxNs (3 * ε) (fun w b t => some (epollWait wd os.hasTimerFd os.settime os.epoll os.finish w b t)) := by
  refine ⟨fun w buf t r w' buf' h => epoll_mono' os hp w buf t r w' buf' h, ?_⟩
  intro w buf d r w' buf' hcap h
  rcases epollWait_inv os w buf (some d) r w' buf' hp (Option.some.inj h) with h1 | ⟨w₁, hs, h1, h2, _, h4⟩
  · unfold up; split <;> omega
  · rw [htf] at hs h4
    simp only [if_true] at hs
    by_cases h0 : d.ns = 0
    · have := hp.epoll_limit w₁ buf (epollTimeoutMs true (some d)) (by simp [epollTimeoutMs, h0])
      have he : epollTimeoutMs true (some d) = 0 := by simp [epollTimeoutMs, h0]
      rw [he] at this h4
      unfold up; rw [if_pos h0]
      omega
    · have hfd : C11.FromDeadline d := ⟨d.ns, 0, hcap, by
        cases d with | mk n hn => simp [saturatingSince]; unfold durLimit at *; omega⟩
      have hv := C11.timer_value_exact d hfd
      obtain ⟨T, hT, hle⟩ := hp.settime_sets htf _ _ _ hs (fun hh => h0 (hv.2.2.2.2.1 hh)) hv.1 hv.2.1
      have := hp.epoll_timer w₁ buf (epollTimeoutMs true (some d)) T hT
      have hv' := hv.2.2.2.1
      unfold up; rw [if_neg h0]
      omega

/-- epoll without a timerfd ends less than a millisecond late. -/
theorem epoll_fallback_prompt {wd : World} (os : EpollOs wd) (htf : os.hasTimerFd = false) {ε} (hp : EpollPrompt os ε) :
    Prompt wd 999999 unixMaxNs (3 * ε) (fun w b t => some (epollWait wd os.hasTimerFd os.settime os.epoll os.finish w b t)) := by
  refine ⟨fun w buf t r w' buf' h => epoll_mono' os hp w buf t r w' buf' h, ?_⟩
  intro w buf d r w' buf' hcap h
  rcases epollWait_inv os w buf (some d) r w' buf' hp (Option.some.inj h) with h1 | ⟨w₁, hs, h1, h2, _, h4⟩
  · unfold up; split <;> omega
  · rw [htf] at hs h4
    by_cases h0 : d.ns = 0
    · have he : epollTimeoutMs false (some d) = 0 := by simp [epollTimeoutMs, h0]
      have := hp.epoll_limit w₁ buf 0 (by omega)
      rw [he] at h4
      unfold up; rw [if_pos h0]
      omega
    · rw [epollMs_eq d h0] at h4
      have := hp.epoll_limit w₁ buf ((min ((d.ns + 999999) / 1000000) 2147483647 : Nat) : Int) (by omega)
      unfold up; rw [if_neg h0]
      omega

/-- kqueue and event ports: the timeout goes to the OS call unchanged, so its promptness carries over. -/
theorem direct_prompt {wd : World} {ε} (sysWait : wd.W → wd.Buf → Option Duration → Ret × wd.W × wd.Buf) (finish : wd.W → Res × wd.W)
    (finish_mono : ∀ w, wd.time w ≤ wd.time (finish w).2) (os_mono : ∀ w b t, wd.time w ≤ wd.time (sysWait w b t).2.1)
    (finish_quick : ∀ w, wd.time (finish w).2 ≤ wd.time w + ε)
    (os_limit : ∀ w b (d : Duration), wd.time (sysWait w b (some d)).2.1 ≤ wd.time w + d.ns + ε) :
    Prompt wd 0 unixMaxNs (2 * ε) (fun w b t => some (directWait wd sysWait finish w b t)) := by
  have key : ∀ w buf t r w' buf', directWait wd sysWait finish w buf t = (r, w', buf') →
      wd.time (sysWait w buf t).2.1 ≤ wd.time w' ∧ wd.time w' ≤ wd.time (sysWait w buf t).2.1 + ε := by
    intro w buf t r w' buf' h
    unfold directWait at h
    rcases he : sysWait w buf t with ⟨re, w₂, b₂⟩
    rw [he] at h
    have h1 := finish_mono w₂
    have h2 := finish_quick w₂
    rcases hf : finish w₂ with ⟨rf, w₃⟩
    rw [hf] at h1 h2
    simp only at h1 h2 ⊢
    cases re with
    | err e => simp only [Prod.mk.injEq] at h; obtain ⟨_, rfl, _⟩ := h; omega
    | _ => simp only [hf] at h; cases rf <;> (simp only [Prod.mk.injEq] at h; obtain ⟨_, rfl, _⟩ := h; omega)
  constructor
  · intro w buf t r w' buf' h
    have := key _ _ _ _ _ _ (Option.some.inj h)
    have := os_mono w buf t
    omega
  · intro w buf d r w' buf' _ h
    have h1 := key _ _ _ _ _ _ (Option.some.inj h)
    have h2 := os_limit w buf d
    unfold up
    split <;> omega

/-- OS contract: `poll(2)` does not outstay its limit, and the other steps are quick; `pre_quick` is also an assumption about the
operations of other threads, for whose end poll.rs `wait` waits (lines 221-230). -/
structure PollPrompt {wd : World} (os : PollOs wd) (ε : Nat) : Prop where
  pre_quick : ∀ w, wd.time (os.pre w).2 ≤ wd.time w + ε
  again_quick : ∀ w, wd.time (os.again w).2 ≤ wd.time w + ε
  poll_limit : ∀ w b ms, 0 ≤ ms → (wd.time (os.poll w b ms).2.1 : Int) ≤ wd.time w + ms * 1000000 + ε

/-- Rounding up to whole milliseconds. -/
theorem ceil_up (cap n : Nat) : min ((n + 999999) / 1000000) cap * 1000000 ≤ up 999999 n := by
  unfold up; split <;> omega

theorem pollLoop_prompt {wd : World} (os : PollOs wd) {ε} (hp : PollPrompt os ε) (hc : ClockOk wd) (hcp : ClockPrompt wd ε)
    {gran : Nat} (hg : ∀ n, min ((n + 999999) / 1000000) 2147483647 * 1000000 ≤ up gran n)
    (d : Nat) (hd : d ≤ unixMaxNs) (fuel : Nat) (w : wd.W) (buf : wd.Buf) (r : Ret) (w' : wd.W) (buf' : wd.Buf)
    (h : pollLoop wd os.pre os.poll os.again (some d) fuel w buf = some (r, w', buf')) :
    wd.time w ≤ wd.time w' ∧ wd.time w' ≤ goal d gran (wd.time w) + fuel * (4 * ε) := by
  induction fuel generalizing w buf with
  | zero => simp [pollLoop] at h
  | succ n ih =>
    have hmul : (n + 1) * (4 * ε) = n * (4 * ε) + 4 * ε := Nat.succ_mul _ _
    have hgoal : wd.time w ≤ goal d gran (wd.time w) := by unfold goal; split <;> omega
    unfold pollLoop at h
    have h1 := os.pre_mono w
    have h1' := hp.pre_quick w
    rcases hpre : os.pre w with ⟨pr, w₁⟩
    rw [hpre] at h h1 h1'
    simp only at h1 h1'
    cases pr with
    | ret x =>
      simp only [Option.some.injEq, Prod.mk.injEq] at h
      obtain ⟨rfl, rfl, rfl⟩ := h
      exact ⟨h1, by rw [hmul]; omega⟩
    | poll =>
      simp only at h
      obtain ⟨hw, hr⟩ := remaining_facts hc (by decide : unixMaxNs < durLimit) (some d) (by rintro _ ⟨⟩; exact hd) w₁
      have hw' := remaining_prompt hcp (some d) w₁
      obtain ⟨rem, hrem⟩ : ∃ rem, (readRemaining wd (some d) w₁).1 = some rem := ⟨_, rfl⟩
      rw [hrem] at h hr
      generalize (readRemaining wd (some d) w₁).2 = w₂ at *
      obtain ⟨_, now, ⟨⟩, hns, hn1, hn2⟩ := hr rem rfl
      obtain ⟨m, hm, hm'⟩ : ∃ m : Nat, pollTimeoutMs (some rem) = (m : Int) ∧ m * 1000000 ≤ up gran (d - now) :=
        ⟨_, pollMs_eq rem, by rw [hns]; exact hg _⟩
      rw [hm] at h
      have h4 := os.poll_mono w₂ buf (m : Int)
      have h4' := hp.poll_limit w₂ buf (m : Int) (Int.natCast_nonneg m)
      rcases hpo : os.poll w₂ buf (m : Int) with ⟨rp, w₃, b₃⟩
      rw [hpo] at h h4 h4'
      simp only at h4 h4'
      have h5 : wd.time w₃ ≤ wd.time w + 3 * ε + up gran (d - now) := by
        omega
      cases rp with
      | err e =>
        simp only [Option.some.injEq, Prod.mk.injEq] at h
        obtain ⟨rfl, rfl, rfl⟩ := h
        have := round_ends (by omega : wd.time w ≤ now) h5
        exact ⟨by omega, by rw [hmul]; omega⟩
      | expired =>
        simp only [Option.some.injEq, Prod.mk.injEq] at h
        obtain ⟨rfl, rfl, rfl⟩ := h
        have := round_ends (by omega : wd.time w ≤ now) h5
        exact ⟨by omega, by rw [hmul]; omega⟩
      | busy =>
        simp only at h
        have h6 := os.again_mono w₃
        have h6' := hp.again_quick w₃
        rcases ha : os.again w₃ with ⟨ra, w₄⟩
        rw [ha] at h h6 h6'
        simp only at h6 h6'
        have h7 := round_ends (d := d) (e := wd.time w₄) (x := 4 * ε) (gran := gran) (by omega : wd.time w ≤ now) (by omega)
        cases ra with
        | true =>
          obtain ⟨h8, h9⟩ := ih _ _ h
          have := goal_step (by omega : wd.time w ≤ wd.time w₄) h7
          exact ⟨by omega, by rw [hmul]; omega⟩
        | false =>
          simp only [Option.some.injEq, Prod.mk.injEq] at h
          obtain ⟨rfl, rfl, rfl⟩ := h
          exact ⟨by omega, by rw [hmul]; omega⟩

/-- The clock is so far from the largest instant that `cap` can be added. -/
def ClockFits (wd : World) (maxNs cap : Nat) : Prop := ∀ w, (wd.clock w).1 + cap ≤ maxNs

/-- poll ends less than a millisecond late, and what the rounds take; there is one more round for each time registration calls of other
threads made it poll again. -/
theorem poll_prompt {wd : World} (os : PollOs wd) {ε} (hp : PollPrompt os ε) (hc : ClockOk wd) (hcp : ClockPrompt wd ε) (fuel : Nat)
    {cap} (hfit : ClockFits wd unixMaxNs cap) :
    Prompt wd 999999 cap (ε + fuel * (4 * ε)) (pollWait wd os.pre os.poll os.again unixMaxNs fuel) := by
  refine ⟨(poll_not_early os hc fuel).mono, ?_⟩
  intro w buf d r w' buf' hcap h
  have hrep : (wd.clock w).1 + d.ns ≤ unixMaxNs := by have := hfit w; omega
  unfold pollWait at h
  rw [deadline_some hrep] at h
  have h1 := (pollLoop_prompt os hp hc hcp (ceil_up _) _ hrep fuel _ _ _ _ _ h).2
  have h2 := goal_begin (gran := 999999) (t := d.ns) (hc w).2 (hcp w)
  simp only at h1
  omega

/-- OS contract: `GetQueuedCompletionStatusEx` does not outstay a limit other than `INFINITE`, and the other steps are quick. -/
structure IocpPrompt {wd : World} (os : IocpOs wd) (ε : Nat) : Prop where
  drain_quick : ∀ w, wd.time (os.drain w).2 ≤ wd.time w + ε
  process_quick : ∀ w b, wd.time (os.process w b).2.1 ≤ wd.time w + ε
  portWait_limit : ∀ w b ms, ms < 4294967295 → wd.time (os.portWait w b ms).2.1 ≤ wd.time w + ms * 1000000 + ε

/-- The longest timeout that does not become `INFINITE`, in nanoseconds (49.7 days). -/
def capU32Ns : Nat := 4294967294 * 1000000

theorem iocpTimeoutMs_eq (t : Duration) : iocpTimeoutMs (some t) = min ((t.ns + 999999) / 1000000) 4294967295 := by
  rw [iocpTimeoutMs, dur2timeout_eq]

theorem round_u32 {n now : Nat} (h : n - now ≤ capU32Ns) : min ((n - now + 999999) / 1000000) 4294967295 < 4294967295 ∧
    min ((n - now + 999999) / 1000000) 4294967295 * 1000000 ≤ n - now + 999999 ∧
    (n ≤ now → min ((n - now + 999999) / 1000000) 4294967295 = 0) := by
  unfold capU32Ns at h
  generalize hk : n - now = k at *
  exact ⟨by omega, by omega, fun _ => by omega⟩

theorem iocpLoop_prompt {wd : World} (os : IocpOs wd) {ε} (hp : IocpPrompt os ε) (hc : ClockOk wd) (hcp : ClockPrompt wd ε)
    (d : Nat) (hd : d ≤ windowsMaxNs) (fuel : Nat) (nt : Bool) (w : wd.W) (hcap : d ≤ wd.time w + capU32Ns) (buf : wd.Buf) (r : Ret)
    (w' : wd.W) (buf' : wd.Buf) (h : iocpLoop wd os.drain os.portWait os.process (some d) fuel nt w buf = some (r, w', buf')) :
    (d ≤ wd.time w → wd.time w' ≤ wd.time w + 4 * ε) ∧
    (wd.time w ≤ d + 999999 + 4 * ε → wd.time w' ≤ d + 999999 + 8 * ε) := by
  induction fuel generalizing nt w buf with
  | zero => simp [iocpLoop] at h
  | succ n ih =>
    unfold iocpLoop at h
    have h1 := os.drain_mono w
    have h1' := hp.drain_quick w
    rcases hdr : os.drain w with ⟨rd, w₁⟩
    rw [hdr] at h h1 h1'
    simp only at h1 h1'
    cases rd with
    | err e =>
      simp only [Option.some.injEq, Prod.mk.injEq] at h
      obtain ⟨rfl, rfl, rfl⟩ := h
      exact ⟨by omega, by omega⟩
    | ok =>
      simp only at h
      obtain ⟨hw, hr⟩ := remaining_facts hc (by decide : windowsMaxNs < durLimit) (some d) (by rintro _ ⟨⟩; exact hd) w₁
      have hw' := remaining_prompt hcp (some d) w₁
      obtain ⟨rem, hrem⟩ : ∃ rem, (readRemaining wd (some d) w₁).1 = some rem := ⟨_, rfl⟩
      rw [hrem] at h hr
      generalize (readRemaining wd (some d) w₁).2 = w₂ at *
      obtain ⟨_, now, ⟨⟩, hns, hn1, hn2⟩ := hr rem rfl
      obtain ⟨m, hm, hm1, hm2, hm3⟩ : ∃ m : Nat, iocpTimeoutMs (some rem) = m ∧ m < 4294967295 ∧
          m * 1000000 ≤ d - now + 999999 ∧ (d ≤ now → m = 0) := by
        refine ⟨_, (iocpTimeoutMs_eq rem).trans (by rw [hns]), ?_⟩
        have hlt : d - now ≤ capU32Ns := by omega
        exact round_u32 hlt
      rw [hm] at h
      have h4 := os.portWait_mono w₂ buf m
      have h4' := hp.portWait_limit w₂ buf m hm1
      rcases hpo : os.portWait w₂ buf m with ⟨rp, w₃, b₃⟩
      rw [hpo] at h h4 h4'
      simp only at h4 h4'
      have h5 := os.process_mono w₃ b₃
      have h5' := hp.process_quick w₃ b₃
      rcases hpr : os.process w₃ b₃ with ⟨pr, w₄, b₄⟩
      rw [hpr] at h5 h5'
      simp only at h5 h5'
      have h3 : (d ≤ wd.time w → wd.time w₃ ≤ wd.time w + 3 * ε) ∧
          (wd.time w ≤ d + 999999 + 4 * ε → wd.time w₃ ≤ d + 999999 + 7 * ε) ∧ (now < d → wd.time w₃ ≤ d + 999999 + 3 * ε) := by
        refine ⟨fun h => ?_, fun _ => by omega, fun _ => by omega⟩
        have := hm3 (by omega)
        omega
      have rest : (match ((pr, w₄, b₄) : Proc × wd.W × wd.Buf) with
            | (.err e, w, buf) => some (Ret.err e, w, buf)
            | (.ok n' new, w, buf) =>
              if (nt || n') || decide (new > 0) then some (.busy, w, buf)
              else if timeoutIsEmpty (some rem) then some (.expired, w, buf)
              else iocpLoop wd os.drain os.portWait os.process (some d) n (nt || n') w buf) = some (r, w', buf') →
          (d ≤ wd.time w → wd.time w' ≤ wd.time w + 4 * ε) ∧
          (wd.time w ≤ d + 999999 + 4 * ε → wd.time w' ≤ d + 999999 + 8 * ε) := by
        intro hm
        cases pr with
        | err e =>
          simp only [Option.some.injEq, Prod.mk.injEq] at hm
          obtain ⟨rfl, rfl, rfl⟩ := hm
          exact ⟨by omega, by omega⟩
        | ok n' new =>
          simp only at hm
          split at hm
          · simp only [Option.some.injEq, Prod.mk.injEq] at hm
            obtain ⟨rfl, rfl, rfl⟩ := hm
            exact ⟨by omega, by omega⟩
          · split at hm
            · simp only [Option.some.injEq, Prod.mk.injEq] at hm
              obtain ⟨rfl, rfl, rfl⟩ := hm
              exact ⟨by omega, by omega⟩
            · next hz =>
              have hpos : now < d := by
                simp only [timeoutIsEmpty, Bool.and_eq_true, beq_iff_eq, Duration.asSecs, Duration.subsecNanos] at hz
                omega
              have h6 := ih _ w₄ (by omega) _ hm
              exact ⟨by omega, fun _ => h6.2 (by omega)⟩
      cases rp with
      | err e =>
        simp only [Option.some.injEq, Prod.mk.injEq] at h
        obtain ⟨rfl, rfl, rfl⟩ := h
        exact ⟨by omega, by omega⟩
      | busy => simp only [hpr] at h; exact rest h
      | expired => simp only [hpr] at h; exact rest h

/-- IOCP ends less than a millisecond late, and what two rounds take, however often it had to look again; for timeouts that do not
become `INFINITE`. -/
theorem iocp_prompt {wd : World} (os : IocpOs wd) {ε} (hp : IocpPrompt os ε) (hc : ClockOk wd) (hcp : ClockPrompt wd ε) (fuel : Nat)
    {cap} (hcap : cap ≤ capU32Ns) (hfit : ClockFits wd windowsMaxNs cap) :
    Prompt wd 999999 cap (9 * ε) (iocpWait wd os.drain os.portWait os.process windowsMaxNs fuel) := by
  refine ⟨(iocp_not_early os hc fuel 0).mono, ?_⟩
  intro w buf d r w' buf' hcd h
  have hrep : (wd.clock w).1 + d.ns ≤ windowsMaxNs := by have := hfit w; omega
  unfold iocpWait at h
  rw [deadline_some hrep] at h
  have hk := hc w
  have hk' := hcp w
  have h1 := iocpLoop_prompt os hp hc hcp _ hrep fuel _ _ (by simp only; omega) _ _ _ _ h
  simp only at h1
  unfold up
  split
  · have := h1.1 (by omega); omega
  · have hb := h1.2
    clear h1
    generalize (wd.clock w).1 = now, (wd.clock w).2 = w₁, (999999 : Nat) = g at *
    have := hb (by omega)
    omega

/-! ### Whole-stack statements -/

/-- epoll with timerfd: a `wait(Some(t))` that returns after fewer than `fuel` interruptions returns no later than `t` after it began,
and the time of the calls. -/
theorem epoll_timerfd_wait_ends {wd : World} (os : EpollOs wd) (htf : os.hasTimerFd = true) {ε} (hp : EpollPrompt os ε)
    (hc : ClockOk wd) (hcp : ClockPrompt wd ε) (clear : wd.Buf → wd.Buf) (fuel : Nat) (w : wd.W) (buf : wd.Buf) (t : Duration)
    (hrep : (wd.clock w).1 + t.ns ≤ unixMaxNs) (r : Ret) (w' : wd.W) (buf' : wd.Buf)
    (h : libWait wd (fun w b t => some (epollWait wd os.hasTimerFd os.settime os.epoll os.finish w b t)) clear
      unixMaxNs fuel w buf (some t) = some (r, w', buf')) :
    wd.time w' ≤ wd.time w + t.ns + (1 + 4 * fuel) * ε := by
  have := wait_ends fuel (by decide) hc hcp (epoll_timerfd_prompt os htf hp) w buf t hrep (by omega) r w' buf' h
  have h2 : up 0 t.ns = t.ns := by unfold up; split <;> omega
  have h3 : fuel * (ε + 3 * ε) = 4 * (fuel * ε) := by
    rw [show ε + 3 * ε = 4 * ε by omega, Nat.mul_left_comm]
  rw [h2, h3] at this
  rw [Nat.add_mul, Nat.mul_assoc]
  omega

/-- epoll without timerfd: less than a millisecond more. -/
theorem epoll_fallback_wait_ends {wd : World} (os : EpollOs wd) (htf : os.hasTimerFd = false) {ε} (hp : EpollPrompt os ε)
    (hc : ClockOk wd) (hcp : ClockPrompt wd ε) (clear : wd.Buf → wd.Buf) (fuel : Nat) (w : wd.W) (buf : wd.Buf) (t : Duration)
    (hrep : (wd.clock w).1 + t.ns ≤ unixMaxNs) (r : Ret) (w' : wd.W) (buf' : wd.Buf)
    (h : libWait wd (fun w b t => some (epollWait wd os.hasTimerFd os.settime os.epoll os.finish w b t)) clear
      unixMaxNs fuel w buf (some t) = some (r, w', buf')) :
    wd.time w' < wd.time w + t.ns + 1000000 + (1 + 4 * fuel) * ε := by
  have := wait_ends fuel (by decide) hc hcp (epoll_fallback_prompt os htf hp) w buf t hrep (by omega) r w' buf' h
  have h2 : up 999999 t.ns ≤ t.ns + 999999 := by unfold up; split <;> omega
  have h3 : fuel * (ε + 3 * ε) = 4 * (fuel * ε) := by
    rw [show ε + 3 * ε = 4 * ε by omega, Nat.mul_left_comm]
  rw [h3] at this
  rw [Nat.add_mul, Nat.mul_assoc]
  omega

/-- kqueue and event ports. -/
theorem direct_wait_ends {wd : World} {ε} (sysWait : wd.W → wd.Buf → Option Duration → Ret × wd.W × wd.Buf) (finish : wd.W → Res × wd.W)
    (finish_mono : ∀ w, wd.time w ≤ wd.time (finish w).2) (os_mono : ∀ w b t, wd.time w ≤ wd.time (sysWait w b t).2.1)
    (finish_quick : ∀ w, wd.time (finish w).2 ≤ wd.time w + ε)
    (os_limit : ∀ w b (d : Duration), wd.time (sysWait w b (some d)).2.1 ≤ wd.time w + d.ns + ε)
    (hc : ClockOk wd) (hcp : ClockPrompt wd ε) (clear : wd.Buf → wd.Buf) (fuel : Nat) (w : wd.W) (buf : wd.Buf) (t : Duration)
    (hrep : (wd.clock w).1 + t.ns ≤ unixMaxNs) (r : Ret) (w' : wd.W) (buf' : wd.Buf)
    (h : libWait wd (fun w b t => some (directWait wd sysWait finish w b t)) clear unixMaxNs fuel w buf (some t) = some (r, w', buf')) :
    wd.time w' ≤ wd.time w + t.ns + (1 + 3 * fuel) * ε := by
  have := wait_ends fuel (by decide) hc hcp (direct_prompt sysWait finish finish_mono os_mono finish_quick os_limit) w buf t hrep
    (by omega) r w' buf' h
  have h2 : up 0 t.ns = t.ns := by unfold up; split <;> omega
  have h3 : fuel * (ε + 2 * ε) = 3 * (fuel * ε) := by
    rw [show ε + 2 * ε = 3 * ε by omega, Nat.mul_left_comm]
  rw [h2, h3] at this
  rw [Nat.add_mul, Nat.mul_assoc]
  omega

/-- poll: with fewer than `fuel` interruptions and, in each round, fewer than `fuel'` times that calls of other threads made it poll
again. -/
theorem poll_wait_ends {wd : World} (os : PollOs wd) {ε} (hp : PollPrompt os ε) (hc : ClockOk wd) (hcp : ClockPrompt wd ε)
    (clear : wd.Buf → wd.Buf) (fuel fuel' : Nat) (w : wd.W) (buf : wd.Buf) (t : Duration) (hfit : ClockFits wd unixMaxNs t.ns)
    (r : Ret) (w' : wd.W) (buf' : wd.Buf)
    (h : libWait wd (pollWait wd os.pre os.poll os.again unixMaxNs fuel') clear unixMaxNs fuel w buf (some t) = some (r, w', buf')) :
    wd.time w' < wd.time w + t.ns + 1000000 + ε + fuel * (2 * ε + fuel' * (4 * ε)) := by
  have := wait_ends fuel (by decide) hc hcp (poll_prompt os hp hc hcp fuel' hfit) w buf t (hfit w) (Nat.le_refl _) r w' buf' h
  have h2 : up 999999 t.ns ≤ t.ns + 999999 := by unfold up; split <;> omega
  rw [show ε + (ε + fuel' * (4 * ε)) = 2 * ε + fuel' * (4 * ε) by omega] at this
  omega

/-- IOCP: for timeouts of at most 4294967294 ms, whatever the completion port reports meanwhile. -/
theorem iocp_wait_ends_partial {wd : World} (os : IocpOs wd) {ε} (hp : IocpPrompt os ε) (hc : ClockOk wd) (hcp : ClockPrompt wd ε)
    (clear : wd.Buf → wd.Buf) (fuel fuel' : Nat) (w : wd.W) (buf : wd.Buf) (t : Duration) (ht : t.ns ≤ 4294967294 * 1000000)
    (hfit : ClockFits wd windowsMaxNs t.ns) (r : Ret) (w' : wd.W) (buf' : wd.Buf)
    (h : libWait wd (iocpWait wd os.drain os.portWait os.process windowsMaxNs fuel') clear windowsMaxNs fuel w buf (some t) =
      some (r, w', buf')) :
    wd.time w' < wd.time w + t.ns + 1000000 + (1 + 10 * fuel) * ε := by
  have := wait_ends fuel (by decide) hc hcp (iocp_prompt os hp hc hcp fuel' ht hfit) w buf t (hfit w) (Nat.le_refl _) r w' buf' h
  have h2 : up 999999 t.ns ≤ t.ns + 999999 := by unfold up; split <;> omega
  have h3 : fuel * (ε + 9 * ε) = 10 * (fuel * ε) := by
    rw [show ε + 9 * ε = 10 * ε by omega, Nat.mul_left_comm]
  rw [h3] at this
  rw [Nat.add_mul, Nat.mul_assoc]
  omega

/-! ### A round after the deadline is the last one -/

/-- IOCP: a round begun when the deadline has passed returns, whatever the completion port reports. -/
theorem iocp_last_round {wd : World} (os : IocpOs wd) (hc : ClockOk wd) (d : Nat) (hd : d ≤ windowsMaxNs) (fuel : Nat) (nt : Bool)
    (w : wd.W) (buf : wd.Buf) (hnow : d ≤ wd.time w) :
    (iocpLoop wd os.drain os.portWait os.process (some d) (fuel + 1) nt w buf).isSome = true := by
  unfold iocpLoop
  have h1 := os.drain_mono w
  rcases hdr : os.drain w with ⟨rd, w₁⟩
  rw [hdr] at h1
  simp only at h1
  cases rd with
  | err e => rfl
  | ok =>
    simp only
    obtain ⟨hw, hr⟩ := remaining_facts hc (by decide : windowsMaxNs < durLimit) (some d) (by rintro _ ⟨⟩; exact hd) w₁
    obtain ⟨rem, hrem⟩ : ∃ rem, (readRemaining wd (some d) w₁).1 = some rem := ⟨_, rfl⟩
    rw [hrem] at hr ⊢
    obtain ⟨_, now, ⟨⟩, hns, hn1, hn2⟩ := hr rem rfl
    have hz : timeoutIsEmpty (some rem) = true := by
      have : rem.ns = 0 := by omega
      simp [timeoutIsEmpty, Duration.asSecs, Duration.subsecNanos, this]
    rcases os.portWait (readRemaining wd (some d) w₁).2 buf (iocpTimeoutMs (some rem)) with ⟨rp, w₃, b₃⟩
    rcases hpr : os.process w₃ b₃ with ⟨pr, w₄, b₄⟩
    cases rp with
    | err e => rfl
    | _ =>
      simp only [hpr]
      cases pr with
      | err e => rfl
      | ok n' new =>
        simp only [hz, if_true]
        split <;> rfl

/-! ### The exceptions -/

/-- A world that is just a time and the number of operations other threads will still ask for; reading the clock takes no time. -/
@[reducible] def toyP : World where
  W := Nat × Nat
  Buf := Unit
  time w := w.1
  clock w := (w.1, w)

theorem toyP_clock : ClockOk toyP := fun _ => ⟨Nat.le_refl _, Nat.le_refl _⟩

/-- Each operation wakes `poll(2)` after 1 ns; without operations it sleeps exactly as long as asked. -/
def toyPoll : PollOs toyP where
  pre w := (.poll, w)
  poll w _ ms := match w with
    | (t, k + 1) => (.busy, (t + 1, k + 1), ())
    | (t, 0) => if 0 ≤ ms then (.expired, (t + (ms * 1000000).toNat, 0), ()) else (.busy, (t, 0), ())
  again w := match w with
    | (t, k + 1) => (true, (t, k))
    | (t, 0) => (false, (t, 0))
  pre_mono := by intro w; simp
  pre_ret := by intro w; simp
  again_mono := by rintro ⟨t, _ | k⟩ <;> simp
  poll_mono := by
    rintro ⟨t, _ | k⟩ b ms
    · simp only; split <;> simp
    · simp
  poll_expired := by
    rintro ⟨t, _ | k⟩ b ms w' b' h
    · simp only at h
      split at h
      · cases h; exact ⟨by assumption, by simp; omega⟩
      · cases h
    · cases h

theorem toyPoll_prompt : PollPrompt toyPoll 1 where
  pre_quick := by intro w; exact Nat.le_succ _
  again_quick := by rintro ⟨t, _ | k⟩ <;> exact Nat.le_succ _
  poll_limit := by
    rintro ⟨t, _ | k⟩ b ms h
    · simp only [toyPoll]; rw [if_pos h]; simp; omega
    · simp only [toyPoll]; omega

theorem toyPoll_loop (d : Nat) : ∀ k t, d ≤ t → pollLoop toyP toyPoll.pre toyPoll.poll toyPoll.again (some d) (k + 1) (t, k) () =
    some (.expired, (t + k, 0), ()) := by
  intro k
  induction k with
  | zero =>
    intro t ht
    have h0 : (saturatingSince d t).ns = 0 := by unfold saturatingSince; simp only; omega
    have hms : pollTimeoutMs (some (saturatingSince d t)) = 0 := by rw [pollMs_eq, h0]; rfl
    simp only [pollLoop, toyPoll, readRemaining, hms]
    rfl
  | succ k ih =>
    intro t ht
    rw [pollLoop]
    show pollLoop toyP toyPoll.pre toyPoll.poll toyPoll.again (some d) (k + 1) (t + 1, k) () = _
    rw [ih (t + 1) (by omega)]
    simp only [Option.some.injEq, Prod.mk.injEq, true_and, and_true]
    omega

/-- The first exception: on poll(2), the operations of other threads keep a `wait` from ending.  A `wait(Some(0))` with `n` calls
of `add`, `modify` or `delete` coming at it from other threads, one after the other, each of which takes only a nanosecond, ends `n`
nanoseconds late, however large `n` is: poll.rs does not look at its deadline before it polls again (line 257). -/
theorem poll_wait_delayed (n : Nat) : PollPrompt toyPoll 1 ∧ ClockOk toyP ∧ ClockPrompt toyP 1 ∧
    libWait toyP (pollWait toyP toyPoll.pre toyPoll.poll toyPoll.again unixMaxNs (n + 1)) id unixMaxNs 1 (0, n) () (some Duration.zero) =
      some (.expired, (n, 0), ()) := by
  refine ⟨toyPoll_prompt, toyP_clock, fun w => Nat.le_succ _, ?_⟩
  have h : pollWait toyP toyPoll.pre toyPoll.poll toyPoll.again unixMaxNs (n + 1) (0, n) () (some Duration.zero) =
      some (.expired, (n, 0), ()) := by
    have := toyPoll_loop 0 n 0 (Nat.le_refl _)
    rw [Nat.zero_add] at this
    exact this
  have hd : readDeadline toyP unixMaxNs (some Duration.zero) (0, n) = (some 0, (0, n)) := rfl
  have hr : readRemaining toyP (some 0) (0, n) = (some Duration.zero, (0, n)) := rfl
  simp only [libWait, libLoop, hd, hr, h]

/-- A Windows on which nothing happens for `n` ns, and then a notification arrives. -/
def toyIocp (n : Nat) : IocpOs toyP where
  drain w := (.ok, w)
  portWait w _ ms := if ms = 4294967295 then (.busy, (w.1 + n, 1), ()) else (.expired, (w.1 + ms * 1000000, 0), ())
  process w _ := (.ok (w.2 == 1) 0, w, ())
  drain_mono := by intro w; simp
  portWait_mono := by intro w b ms; simp only; split <;> simp
  process_mono := by intro w b; simp

theorem toyIocp_prompt (n : Nat) : IocpPrompt (toyIocp n) 0 where
  drain_quick := by intro w; simp [toyIocp]
  process_quick := by intro w b; simp [toyIocp]
  portWait_limit := by 
    intro w b ms h
    have key : ∀ a m : Nat, a + m ≤ a + m + 0 := fun a m => Nat.le_refl _
    have hpw : (toyIocp n).portWait w b ms = (.expired, (w.1 + ms * 1000000, 0), ()) := if_neg (Nat.ne_of_lt h)
    rw [hpw]
    exact key _ _

/-- The second exception: on IOCP a `wait` with a timeout above 4294967294 ms, one nanosecond more here, has none.  It returns only
when there is something to return for, `n` ns later here, however large `n` is. -/
theorem iocp_long_timeout_lost (n : Nat) : IocpPrompt (toyIocp n) 0 ∧ ClockOk toyP ∧ ClockPrompt toyP 0 ∧
    libWait toyP (iocpWait toyP (toyIocp n).drain (toyIocp n).portWait (toyIocp n).process windowsMaxNs 1) id windowsMaxNs 1 (0, 0) ()
      (some ⟨4294967294000001, by decide⟩) = some (.busy, (n, 1), ()) := by
  refine ⟨toyIocp_prompt n, toyP_clock, fun w => Nat.le_refl _, ?_⟩
  have hms : iocpTimeoutMs (some ⟨4294967294000001, by decide⟩) = 4294967295 := by
    rw [iocpTimeoutMs_eq]; simp only; omega
  have hd : readDeadline toyP windowsMaxNs (some ⟨4294967294000001, by decide⟩) (0, 0) = (some 4294967294000001, (0, 0)) := by
    simp [readDeadline, instantCheckedAdd, windowsMaxNs]
  have hr : readRemaining toyP (some 4294967294000001) (0, 0) = (some ⟨4294967294000001, by decide⟩, (0, 0)) := by
    simp [readRemaining, saturatingSince, durLimit]
  have h : iocpLoop toyP (toyIocp n).drain (toyIocp n).portWait (toyIocp n).process (some 4294967294000001) 1 false (0, 0) () =
      some (.busy, (n, 1), ()) := by
    simp only [iocpLoop, toyIocp, hr, hms]
    simp
  have h' : iocpWait toyP (toyIocp n).drain (toyIocp n).portWait (toyIocp n).process windowsMaxNs 1 (0, 0) ()
      (some ⟨4294967294000001, by decide⟩) = some (.busy, (n, 1), ()) := by
    simp only [iocpWait, hd, h]
  simp only [libWait, libLoop, hd, hr, h']

/-! ### The hypotheses are met by a concrete OS -/

/-- An OS that obeys the epoll contracts: each call is interrupted 5 ns in while interruptions remain, otherwise it sleeps exactly as
long as its limit and the timer say. -/
def toyEp (timerfd : Bool) : EpollOs toy where
  hasTimerFd := timerfd
  timer w := if timerfd then w.2.2 else none
  settime w v := (.ok, (w.1 + 1, w.2.1, if v = (0, 0) then none else some (w.1 + 1 + (v.1 * 1000000000 + v.2).toNat)))
  epoll w _ ms := match w with
    | (t, k + 1, tm) => (.err .interrupted, (t + 5, k, tm), ())
    | (t, 0, tm) =>
      match (if timerfd then tm else none), decide (0 ≤ ms) with
      | some T, true => (.expired, (min (max t T) (t + (ms * 1000000).toNat), 0, tm), ())
      | some T, false => (.expired, (max t T, 0, tm), ())
      | none, true => (.expired, (t + (ms * 1000000).toNat, 0, tm), ())
      | none, false => (.busy, (t, 0, tm), ())
  finish w := (.ok, w)
  settime_mono := by intro w v; simp
  epoll_mono := by
    rintro ⟨t, _ | k, tm⟩ b ms
    · simp only; split <;> simp only <;> omega
    · simp
  finish_mono := by intro w; simp
  settime_ok := by
    intro w v w' h
    simp only [Prod.mk.injEq, true_and] at h
    subst h
    refine ⟨fun h => by simp [h], fun T hT => ?_⟩
    simp only at hT ⊢
    split at hT
    · split at hT
      · cases hT
      · cases hT; omega
    · cases hT
  no_timer := by rintro rfl w; rfl
  epoll_expired := by
    rintro ⟨t, _ | k, tm⟩ b ms w' b' h
    · simp only at h
      split at h <;> cases h
      · next T hT hms =>
        simp only [decide_eq_true_eq] at hms
        by_cases hl : max t T ≤ t + (ms * 1000000).toNat
        · exact .inr ⟨T, hT, by simp only; omega⟩
        · exact .inl ⟨hms, by simp only; omega⟩
      · next T hT hms => exact .inr ⟨T, hT, by simp only; omega⟩
      · next hms => simp only [decide_eq_true_eq] at hms; exact .inl ⟨hms, by simp only; omega⟩
    · cases h

theorem toyEp_prompt (timerfd : Bool) : EpollPrompt (toyEp timerfd) 5 where
  settime_quick := by intro w v; simp [toyEp]
  settime_sets := by
    intro htf w v w' h hv h1 h2
    have htf : timerfd = true := htf
    subst htf
    simp only [toyEp, Prod.mk.injEq, true_and] at h
    subst h
    refine ⟨w.1 + 1 + (v.1 * 1000000000 + v.2).toNat, by simp [toyEp, hv], ?_⟩
    simp only
    omega
  finish_quick := by intro w; simp [toyEp]
  epoll_limit := by
    rintro ⟨t, _ | k, tm⟩ b ms h
    · simp only [toyEp]; split <;> simp_all <;> omega
    · simp only [toyEp]; omega
  epoll_timer := by
    rintro ⟨t, _ | k, tm⟩ b ms T h
    · simp only [toyEp] at h ⊢; split <;> simp_all <;> omega
    · simp only [toyEp]; omega

/-- A wait of 1000 ns with two interruptions ends at 1104, well within the bound of the theorem. -/
example : (libWait toy (fun w b t => some (epollWait toy true (toyEp true).settime (toyEp true).epoll (toyEp true).finish w b t))
    id unixMaxNs 3 (100, 2, none) () (some ⟨1000, by decide⟩)).map (fun r => (r.1, r.2.1.1))
    = some (.expired, 1104) := by decide

/-- Without the timerfd, rounded up to a millisecond. -/
example : (libWait toy (fun w b t => some (epollWait toy false (toyEp false).settime (toyEp false).epoll (toyEp false).finish w b t))
    id unixMaxNs 3 (100, 2, none) () (some ⟨1000, by decide⟩)).map (fun r => (r.1, r.2.1.1))
    = some (.expired, 1000122) := by decide

end Polling.C59
