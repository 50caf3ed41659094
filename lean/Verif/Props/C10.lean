import Verif.Props.C09
import Verif.Props.C08

/-! C10: a zero or expired timeout never blocks. -/

namespace Polling.C10
open Timing Lib TimeSpec

/-- The time limit argument each backend passes to its blocking OS call for a timeout `t`
(epoll with/without timerfd, poll, IOCP: milliseconds; kqueue and event ports: the duration itself). -/
theorem zero_is_nonblocking (t : Duration) (h0 : t.ns = 0) :
    (∀ hasTimerFd, epollTimeoutMs hasTimerFd (some t) = 0) ∧ pollTimeoutMs (some t) = 0 ∧
    iocpTimeoutMs (some t) = 0 := by
  refine ⟨fun b => by simp [epollTimeoutMs, h0], by rw [pollMs_eq, h0]; rfl, ?_⟩
  simp only [iocpTimeoutMs, dur2timeout_eq, h0]; rfl

/-- ... and only a zero timeout is turned into a non-blocking call. -/
theorem nonblocking_only_if_zero (t : Duration) :
    (∀ hasTimerFd, epollTimeoutMs hasTimerFd (some t) = 0 → t.ns = 0) ∧ (pollTimeoutMs (some t) = 0 → t.ns = 0) ∧
    (iocpTimeoutMs (some t) = 0 → t.ns = 0) ∧
    (∀ hasTimerFd, epollTimeoutMs hasTimerFd none ≠ 0) ∧ pollTimeoutMs none ≠ 0 ∧ iocpTimeoutMs none ≠ 0 := by
  refine ⟨fun b h => ?_, fun h => ?_, fun h => ?_, by simp [epollTimeoutMs], by simp [pollTimeoutMs], by decide⟩
  · by_cases h0 : t.ns = 0
    · exact h0
    · cases b with
      | true => simp [epollTimeoutMs, h0] at h
      | false => rw [epollMs_eq t h0] at h; omega
  · rw [pollMs_eq] at h; omega
  · simp only [iocpTimeoutMs, dur2timeout_eq] at h; omega

variable {X : Type} {sys : Sys X}

/-- The clock the backend sees never runs backwards: no reading is below `n₀` in any world reachable from
`w` (worlds related by `R`). -/
structure ClockFrom (sys : Sys X) (R : sys.W → Prop) (n₀ : Nat) : Prop where
  clock : ∀ w, R w → n₀ ≤ (sys.clock w).1 ∧ R (sys.clock w).2
  wait : ∀ w b t, R w → R (sys.wait w b t).2.1

theorem loop_zero (R : sys.W → Prop) (n₀ d : Nat) (hd : d ≤ n₀) (hc : ClockFrom sys R n₀) (fuel : Nat)
    (p : Poller sys) (buf : sys.Buf) (calls : List (Call sys)) (out : WaitOut sys) (hR : R p.w)
    (hcalls : ∀ c ∈ calls, ∃ t, c.timeout = some t ∧ t.ns = 0)
    (h : waitLoop (some d) fuel p buf calls = some out) :
    ∀ c ∈ out.calls, ∃ t, c.timeout = some t ∧ t.ns = 0 := by
  induction fuel generalizing p buf calls with
  | zero => simp [waitLoop] at h
  | succ n ih =>
    unfold waitLoop at h
    simp only at h
    have hck := hc.clock p.w hR
    have hw := hc.wait (sys.clock p.w).2 buf (some (saturatingSince d (sys.clock p.w).1)) hck.2
    have hz : ∀ c ∈ calls ++ [⟨some (sys.clock p.w).1, some (saturatingSince d (sys.clock p.w).1), buf⟩],
        ∃ t, (c : Call sys).timeout = some t ∧ t.ns = 0 := by
      intro c hc'
      rcases List.mem_append.1 hc' with h1 | h1
      · exact hcalls c h1
      · obtain rfl := List.mem_singleton.1 h1
        exact ⟨_, rfl, by simp only [saturatingSince]; omega⟩
    rcases hs : sys.wait (sys.clock p.w).2 buf (some (saturatingSince d (sys.clock p.w).1)) with ⟨r, w', b'⟩
    rw [hs] at h hw
    cases r with
    | ok =>
      simp only [Option.some.injEq] at h
      subst h
      exact hz
    | err e =>
      simp only at h
      split at h
      · exact ih _ _ _ hw hz h
      · simp only [Option.some.injEq] at h
        subst h
        exact hz

/-- C10: `wait(Some(0))`: every backend call it makes, including retries after interruptions, has a zero
timeout — which by `zero_is_nonblocking` is a non-blocking OS call on every backend. -/
theorem zero_timeout_never_blocks (maxNs fuel : Nat) (p : Poller sys) (buf : sys.Buf) (t : Duration)
    (out : WaitOut sys) (R : sys.W → Prop) (h0 : t.ns = 0) (hrep : (sys.clock p.w).1 ≤ maxNs)
    (hR : R (sys.clock p.w).2) (hc : ClockFrom sys R (sys.clock p.w).1)
    (h : wait maxNs fuel p buf (some t) = some out) :
    ∀ c ∈ out.calls, ∃ t, c.timeout = some t ∧ t.ns = 0 := by
  unfold Lib.wait at h
  split at h
  · simp only [Option.some.injEq] at h; subst h; simp
  · have : instantCheckedAdd maxNs (sys.clock p.w).1 t = some (sys.clock p.w).1 := by
      simp [instantCheckedAdd, h0, hrep]
    simp only [this] at h
    exact loop_zero R _ _ (Nat.le_refl _) hc _ _ _ _ _ hR (by simp) h

/-- C10, expired deadline: once the deadline has passed, every further backend call of the wait is given
a zero timeout. -/
theorem expired_deadline_never_blocks (fuel d n₀ : Nat) (hd : d ≤ n₀) (p : Poller sys) (buf : sys.Buf)
    (out : WaitOut sys) (R : sys.W → Prop) (hR : R p.w) (hc : ClockFrom sys R n₀)
    (h : waitLoop (some d) fuel p buf [] = some out) :
    ∀ c ∈ out.calls, ∃ t, c.timeout = some t ∧ t.ns = 0 :=
  loop_zero R n₀ d hd hc fuel p buf [] out hR (by simp) h

/-- poll.rs and iocp/mod.rs recompute a deadline of their own from the timeout they are given; a zero timeout
gives again a zero remaining time at every later clock reading. -/
theorem inner_deadline_zero (maxNs now later : Nat) (t : Duration) (h0 : t.ns = 0) (hrep : now ≤ maxNs)
    (hl : now ≤ later) :
    ∃ d, instantCheckedAdd maxNs now t = some d ∧ (saturatingSince d later).ns = 0 := by
  refine ⟨now, by simp [instantCheckedAdd, h0, hrep], ?_⟩
  simp only [saturatingSince]; omega

/-! ### The loops of the backends

"Never blocks" for a whole `wait`: its result does not depend on what the OS call does with any time limit but 0, so no
other call is made.  The OS calls are arbitrary (time does not run backwards, `C09.ClockOk`, `C09.PollOs`, `C09.IocpOs`). -/

/-- Every reading of the clock is a representable `Instant`. -/
def Representable (wd : World) (maxNs : Nat) : Prop := ∀ w, (wd.clock w).1 ≤ maxNs

theorem remaining_zero {wd : World} (hc : C09.ClockOk wd) {d : Nat} {w : wd.W} (hd : d ≤ wd.time w) :
    ∃ t, (readRemaining wd (some d) w).1 = some t ∧ t.ns = 0 ∧ d ≤ wd.time (readRemaining wd (some d) w).2 := by
  have := hc w
  refine ⟨_, rfl, ?_, ?_⟩
  · simp only [saturatingSince]; omega
  · simp only [readRemaining]; omega

theorem deadline_zero {wd : World} (hc : C09.ClockOk wd) {maxNs : Nat} (hm : Representable wd maxNs) {t : Duration}
    (h0 : t.ns = 0) (w : wd.W) :
    ∃ d, (readDeadline wd maxNs (some t) w).1 = some d ∧ d ≤ wd.time (readDeadline wd maxNs (some t) w).2 :=
  ⟨(wd.clock w).1, by simp [readDeadline, instantCheckedAdd, h0, hm w], (hc w).2⟩

/-- Two waits that agree on zero timeouts. -/
def AgreeAtZero (wd : World) (wait wait' : wd.W → wd.Buf → Option Duration → Option (Ret × wd.W × wd.Buf)) : Prop :=
  ∀ w buf t, t.ns = 0 → wait w buf (some t) = wait' w buf (some t)

/-- The portable layer: retries included, a zero timeout stays zero. -/
theorem lib_zero {wd : World} (hc : C09.ClockOk wd) {maxNs : Nat} (hm : Representable wd maxNs) {wait wait' clear}
    (hmono : ∀ w buf t r w' buf', wait w buf t = some (r, w', buf') → wd.time w ≤ wd.time w')
    (h : AgreeAtZero wd wait wait') (fuel : Nat) :
    AgreeAtZero wd (libWait wd wait clear maxNs fuel) (libWait wd wait' clear maxNs fuel) := by
  intro w buf t h0
  obtain ⟨d, hd, hle⟩ := deadline_zero hc hm h0 w
  unfold libWait
  rw [hd]
  generalize (readDeadline wd maxNs (some t) w).2 = w at hle
  induction fuel generalizing w buf with
  | zero => rfl
  | succ n ih =>
    obtain ⟨t', ht, h0', hle'⟩ := remaining_zero hc hle
    unfold libLoop
    rw [ht, ← h _ _ _ h0']
    split
    · rfl
    · next e w2 b2 heq =>
      have := hmono _ _ _ _ _ _ heq
      split
      · exact ih _ _ (by omega)
      · rfl
    · rfl

/-- epoll, with or without a timerfd: only `epoll_wait(.., 0)`. -/
theorem epoll_zero_never_blocks {wd : World} (os : C09.EpollOs wd) (hc : C09.ClockOk wd)
    (hm : Representable wd unixMaxNs) (epoll' : wd.W → wd.Buf → Int → Ret × wd.W × wd.Buf)
    (he : ∀ w b, epoll' w b 0 = os.epoll w b 0) (clear) (fuel : Nat) :
    AgreeAtZero wd
      (libWait wd (fun w b t => some (epollWait wd os.hasTimerFd os.settime os.epoll os.finish w b t)) clear unixMaxNs fuel)
      (libWait wd (fun w b t => some (epollWait wd os.hasTimerFd os.settime epoll' os.finish w b t)) clear unixMaxNs fuel) := by
  refine lib_zero hc hm ?_ ?_ fuel
  · cases hb : os.hasTimerFd with
    | true => have := (C09.epoll_timerfd_not_early os hb 0).mono; rw [hb] at this; exact this
    | false => have := (C09.epoll_fallback_not_early os hb).mono; rw [hb] at this; exact this
  · intro w b t h0
    have := (zero_is_nonblocking t h0).1 os.hasTimerFd
    simp only [epollWait, this, he]

/-- kqueue and event ports: only calls with a zero timeout. -/
theorem direct_zero_never_blocks {wd : World} (hc : C09.ClockOk wd) (hm : Representable wd unixMaxNs)
    (sysWait sysWait' : wd.W → wd.Buf → Option Duration → Ret × wd.W × wd.Buf) (finish : wd.W → Res × wd.W)
    (finish_mono : ∀ w, wd.time w ≤ wd.time (finish w).2) (os_mono : ∀ w b t, wd.time w ≤ wd.time (sysWait w b t).2.1)
    (hs : ∀ w b t, t.ns = 0 → sysWait' w b (some t) = sysWait w b (some t)) (clear) (fuel : Nat) :
    AgreeAtZero wd (libWait wd (fun w b t => some (directWait wd sysWait finish w b t)) clear unixMaxNs fuel)
      (libWait wd (fun w b t => some (directWait wd sysWait' finish w b t)) clear unixMaxNs fuel) := by
  refine lib_zero hc hm ?_ ?_ fuel
  · intro w buf t r w' buf' h
    simp only [Option.some.injEq, directWait] at h
    have h2 := os_mono w buf t
    rcases he : sysWait w buf t with ⟨re, w₂, b₂⟩
    rw [he] at h h2
    have h3 := finish_mono w₂
    rcases hf : finish w₂ with ⟨rf, w₃⟩
    rw [hf] at h3
    cases re with
    | err e => simp only [Prod.mk.injEq] at h; obtain ⟨_, rfl, _⟩ := h; exact h2
    | _ => simp only [hf] at h; cases rf <;> (simp only [Prod.mk.injEq] at h; obtain ⟨_, rfl, _⟩ := h; simp only at *; omega)
  · intro w b t h0
    simp only [directWait, hs w b t h0]

theorem pollLoop_zero {wd : World} (os : C09.PollOs wd) (hc : C09.ClockOk wd)
    (poll' : wd.W → wd.Buf → Int → Ret × wd.W × wd.Buf) (hp : ∀ w b, poll' w b 0 = os.poll w b 0) (d fuel : Nat)
    (w : wd.W) (buf : wd.Buf) (hd : d ≤ wd.time w) :
    pollLoop wd os.pre os.poll os.again (some d) fuel w buf = pollLoop wd os.pre poll' os.again (some d) fuel w buf := by
  induction fuel generalizing w buf with
  | zero => rfl
  | succ n ih =>
    unfold pollLoop
    have h1 := os.pre_mono w
    rcases hpre : os.pre w with ⟨pr, w1⟩
    rw [hpre] at h1
    cases pr with
    | ret r => rfl
    | poll =>
      obtain ⟨t, ht, h0, hle⟩ := remaining_zero hc (Nat.le_trans hd h1)
      simp only at ht hle ⊢
      rw [ht, (zero_is_nonblocking t h0).2.1, hp]
      have h2 := os.poll_mono (readRemaining wd (some d) w1).2 buf 0
      rcases he : os.poll (readRemaining wd (some d) w1).2 buf 0 with ⟨r, w2, b2⟩
      rw [he] at h2
      cases r with
      | err e => rfl
      | expired => rfl
      | busy =>
        simp only
        have h3 := os.again_mono w2
        rcases ha : os.again w2 with ⟨r, w3⟩
        rw [ha] at h3
        simp only at h2 h3
        cases r with
        | true => exact ih _ _ (by omega)
        | false => rfl

/-- poll: only `poll(.., 0)`, however often registration calls of other threads make it poll again.  (Before polling
it may have to wait for a registration call of another thread that is using the table, as with every timeout.) -/
theorem poll_zero_never_blocks {wd : World} (os : C09.PollOs wd) (hc : C09.ClockOk wd) (hm : Representable wd unixMaxNs)
    (poll' : wd.W → wd.Buf → Int → Ret × wd.W × wd.Buf) (hp : ∀ w b, poll' w b 0 = os.poll w b 0) (clear)
    (fuel fuel' : Nat) :
    AgreeAtZero wd (libWait wd (pollWait wd os.pre os.poll os.again unixMaxNs fuel') clear unixMaxNs fuel)
      (libWait wd (pollWait wd os.pre poll' os.again unixMaxNs fuel') clear unixMaxNs fuel) := by
  refine lib_zero hc hm (C09.poll_not_early os hc fuel').mono ?_ fuel
  intro w b t h0
  obtain ⟨d, hd, hle⟩ := deadline_zero hc hm h0 w
  unfold pollWait
  rw [hd]
  exact pollLoop_zero os hc poll' hp d fuel' _ b hle

/-- IOCP: only `GetQueuedCompletionStatusEx(.., 0)`, and only once for each call of the backend. -/
theorem iocpLoop_zero {wd : World} (os : C09.IocpOs wd) (hc : C09.ClockOk wd)
    (portWait' : wd.W → wd.Buf → Nat → Ret × wd.W × wd.Buf) (hp : ∀ w b, portWait' w b 0 = os.portWait w b 0) (d fuel : Nat)
    (nt : Bool) (w : wd.W) (buf : wd.Buf) (hd : d ≤ wd.time w) :
    iocpLoop wd os.drain os.portWait os.process (some d) (fuel + 1) nt w buf =
      iocpLoop wd os.drain portWait' os.process (some d) 1 nt w buf ∧
    (iocpLoop wd os.drain portWait' os.process (some d) 1 nt w buf).isSome = true := by
  unfold iocpLoop
  have h1 := os.drain_mono w
  rcases hdr : os.drain w with ⟨r, w1⟩
  rw [hdr] at h1
  cases r with
  | err e => exact ⟨rfl, rfl⟩
  | ok =>
    obtain ⟨t, ht, h0, hle⟩ := remaining_zero hc (Nat.le_trans hd h1)
    have hempty : timeoutIsEmpty (some t) = true := by simp [timeoutIsEmpty, Duration.asSecs, Duration.subsecNanos, h0]
    simp only
    rw [ht, (zero_is_nonblocking t h0).2.2, hp]
    rcases he : os.portWait (readRemaining wd (some d) w1).2 buf 0 with ⟨r, w2, b2⟩
    cases r with
    | err e => exact ⟨rfl, rfl⟩
    | _ =>
      simp only [hempty, if_true]
      rcases hpr : os.process w2 b2 with ⟨r, w3, b3⟩
      cases r with
      | err e => exact ⟨trivial, rfl⟩
      | ok n new => refine ⟨trivial, ?_⟩; simp only; split <;> rfl

theorem iocp_zero_never_blocks {wd : World} (os : C09.IocpOs wd) (hc : C09.ClockOk wd) {maxNs : Nat}
    (hmax : maxNs < durLimit) (hm : Representable wd maxNs)
    (portWait' : wd.W → wd.Buf → Nat → Ret × wd.W × wd.Buf) (hp : ∀ w b, portWait' w b 0 = os.portWait w b 0) (clear)
    (fuel fuel' : Nat) :
    AgreeAtZero wd (libWait wd (iocpWait wd os.drain os.portWait os.process maxNs (fuel' + 1)) clear maxNs fuel)
      (libWait wd (iocpWait wd os.drain portWait' os.process maxNs 1) clear maxNs fuel) := by
  refine lib_zero hc hm ?_ ?_ fuel
  · intro w buf t r w' buf' h
    obtain ⟨h1, h2⟩ := C09.deadline_facts hc maxNs t w
    have := (C09.iocpLoop_notEarly os hc hmax _ (fun x hx => (h2 x hx).1) _ _ _ _ _ _ _ h).1
    omega
  · intro w b t h0
    obtain ⟨d, hd, hle⟩ := deadline_zero hc hm h0 w
    unfold iocpWait
    rw [hd]
    exact (iocpLoop_zero os hc portWait' hp d fuel' _ _ b hle).1

/-- The IOCP `wait` with a zero timeout always returns after its first round. -/
theorem iocp_zero_one_round {wd : World} (os : C09.IocpOs wd) (hc : C09.ClockOk wd) {maxNs : Nat}
    (hm : Representable wd maxNs) (w : wd.W) (buf : wd.Buf) (t : Duration) (h0 : t.ns = 0) :
    (iocpWait wd os.drain os.portWait os.process maxNs 1 w buf (some t)).isSome = true := by
  obtain ⟨d, hd, hle⟩ := deadline_zero hc hm h0 w
  unfold iocpWait
  rw [hd]
  exact (iocpLoop_zero os hc os.portWait (fun _ _ => rfl) d 0 _ _ buf hle).2

/-- A world with a clock that takes 3 ns to read; the counter is the number of interruptions to come. -/
@[reducible] def clockwork : World where
  W := Nat × Nat
  Buf := Unit
  time w := min w.1 1000000
  clock w := (min (w.1 + 1) 1000000, (w.1 + 3, w.2))

/-- An IOCP that is interrupted, or sleeps as long as it is asked to. -/
def sleepy : C09.IocpOs clockwork where
  drain w := (.ok, w)
  portWait w _ ms := match w with
    | (t, k + 1) => (.err .interrupted, (t + 5, k), ())
    | (t, 0) => (.expired, (t + ms, 0), ())
  process w b := (.ok false 0, w, b)
  drain_mono := by intro w; exact Nat.le_refl _
  portWait_mono := by
    rintro ⟨t, k⟩ b ms
    cases k <;> simp only <;> omega
  process_mono := by intro w b; exact Nat.le_refl _

/-- The hypotheses hold, and `wait(Some(0))` returns at once after two interruptions - also on the same IOCP changed such
that every blocking call fails. -/
example : C09.ClockOk clockwork ∧ Representable clockwork 1000000 ∧
    libWait clockwork (iocpWait clockwork sleepy.drain sleepy.portWait sleepy.process 1000000 9) id 1000000 9 (7, 2) ()
      (some ⟨0, by decide⟩) = some (.expired, (47, 0), ()) ∧
    libWait clockwork (iocpWait clockwork sleepy.drain
        (fun w b ms => if ms = 0 then sleepy.portWait w b ms else (.err .unsupported, w, b)) sleepy.process 1000000 1)
      id 1000000 9 (7, 2) () (some ⟨0, by decide⟩) = some (.expired, (47, 0), ()) := by
  refine ⟨?_, ?_, by decide, by decide⟩
  · intro w; simp only; omega
  · intro w; simp only; omega

example : (wait (sys := C08.flaky) 1000 10 ⟨((2, 5) : Nat × Nat), false, false⟩ [] (some ⟨0, by decide⟩)).map
    (fun o => (o.res, o.calls.map (fun c => c.timeout.map Duration.ns)))
    = some (.ok 1, [some 0, some 0, some 0]) := by decide
example : ClockFrom C08.flaky (fun w => 5 ≤ w.2) 5 := by
  constructor
  · intro w h; exact ⟨h, h⟩
  · rintro ⟨k, t⟩ b _ h
    cases k with
    | zero => exact h
    | succ k => exact Nat.le_trans h (Nat.le_add_right _ _)

end Polling.C10
