import Verif.Model.WaitTiming
import Verif.Props.C11

/-! C09: a timeout never fires early.

`Ret.expired` is a return with no event, no notification, no error and no spurious wake-up.
The conversion half of the claim (rounding up, least covering number) is in `C11`. -/

namespace Polling.C09
open Timing TimeSpec

/-- OS contract for the clock: a reading lies between the true times before and after it. -/
def ClockOk (wd : World) : Prop :=
  ∀ w, wd.time w ≤ (wd.clock w).1 ∧ (wd.clock w).1 ≤ wd.time (wd.clock w).2

/-- A (backend or public) wait with which time does not run backwards, which expires only if it was given a
timeout, and then not before that timeout or the cap has elapsed. -/
structure NotEarly (wd : World) (cap : Nat)
    (wait : wd.W → wd.Buf → Option Duration → Option (Ret × wd.W × wd.Buf)) : Prop where
  mono : ∀ w buf t r w' buf', wait w buf t = some (r, w', buf') → wd.time w ≤ wd.time w'
  expired : ∀ w buf t w' buf', wait w buf t = some (.expired, w', buf') →
    ∃ d : Duration, t = some d ∧ wd.time w + min d.ns cap ≤ wd.time w'

/-- As `NotEarly`, but only asked for timeouts that `Poller::wait` can pass on (on Unix). -/
structure BackendNotEarly (wd : World) (cap maxNs : Nat)
    (wait : wd.W → wd.Buf → Option Duration → Option (Ret × wd.W × wd.Buf)) : Prop where
  mono : ∀ w buf t r w' buf', wait w buf t = some (r, w', buf') → wd.time w ≤ wd.time w'
  expired : ∀ w buf t w' buf', (∀ d, t = some d → d.ns ≤ maxNs) → wait w buf t = some (.expired, w', buf') →
    ∃ d : Duration, t = some d ∧ wd.time w + min d.ns cap ≤ wd.time w'

theorem remaining_facts {wd : World} (hc : ClockOk wd) {maxNs} (hmax : maxNs < durLimit) (deadline : Option Nat)
    (hd : ∀ d, deadline = some d → d ≤ maxNs) (w : wd.W) :
    wd.time w ≤ wd.time (readRemaining wd deadline w).2 ∧
    ∀ t, (readRemaining wd deadline w).1 = some t → ∃ d now, deadline = some d ∧ t.ns = d - now ∧
      now ≤ wd.time (readRemaining wd deadline w).2 ∧ wd.time w ≤ now := by
  cases deadline with
  | none => exact ⟨Nat.le_refl _, by simp [readRemaining]⟩
  | some d =>
    have hck := hc w
    refine ⟨by simp only [readRemaining]; omega, ?_⟩
    intro t ht
    obtain rfl := Option.some.inj ht
    exact ⟨d, (wd.clock w).1, rfl, C11.remaining_exact maxNs d _ hmax (hd d rfl), hck.2, hck.1⟩

theorem deadline_facts {wd : World} (hc : ClockOk wd) (maxNs : Nat) (t : Option Duration) (w : wd.W) :
    wd.time w ≤ wd.time (readDeadline wd maxNs t w).2 ∧
    ∀ d, (readDeadline wd maxNs t w).1 = some d → d ≤ maxNs ∧ ∃ t', t = some t' ∧ wd.time w + t'.ns ≤ d := by
  cases t with
  | none => exact ⟨Nat.le_refl _, by simp [readDeadline]⟩
  | some t =>
    have hck := hc w
    refine ⟨by simp only [readDeadline]; omega, ?_⟩
    intro d hd
    have := (C11.deadline_exact maxNs (wd.clock w).1 t).1 d hd
    exact ⟨this.2, t, rfl, by omega⟩

theorem libLoop_notEarly {wd : World} {sysWait clear maxNs cap} (hmax : maxNs < durLimit) (hc : ClockOk wd)
    (hb : BackendNotEarly wd cap maxNs sysWait) (deadline : Option Nat) (hd : ∀ d, deadline = some d → d ≤ maxNs)
    (fuel : Nat) (w : wd.W) (buf : wd.Buf) (r : Ret) (w' : wd.W) (buf' : wd.Buf)
    (h : libLoop wd sysWait clear deadline fuel w buf = some (r, w', buf')) :
    wd.time w ≤ wd.time w' ∧
    (r = .expired → ∃ d, deadline = some d ∧ (d ≤ wd.time w' ∨ wd.time w + cap ≤ wd.time w')) := by
  induction fuel generalizing w buf with
  | zero => simp [libLoop] at h
  | succ n ih =>
    unfold libLoop at h
    obtain ⟨hw₁, ht⟩ := remaining_facts hc hmax deadline hd w
    generalize (readRemaining wd deadline w).2 = w₁ at *
    generalize (readRemaining wd deadline w).1 = timeout at *
    split at h
    · simp at h
    · next e w₂ b₂ heq =>
      have h2 := hb.mono _ _ _ _ _ _ heq
      split at h
      · obtain ⟨h3, h4⟩ := ih _ _ h
        refine ⟨by omega, fun hr => ?_⟩
        obtain ⟨d, hd1, hd2⟩ := h4 hr
        exact ⟨d, hd1, by omega⟩
      · simp only [Option.some.injEq, Prod.mk.injEq] at h
        obtain ⟨rfl, rfl, rfl⟩ := h
        exact ⟨by omega, by simp⟩
    · next r₂ hne heq =>
      obtain rfl := Option.some.inj h
      refine ⟨by have := hb.mono _ _ _ _ _ _ heq; omega, ?_⟩
      rintro rfl
      obtain ⟨d, rfl, h5⟩ := hb.expired _ _ _ _ _ (by
        intro t htt
        obtain ⟨dd, now, hdd, hns, _⟩ := ht t htt
        have := hd dd hdd
        omega) heq
      obtain ⟨dd, now, hdd, hns, h6, h7⟩ := ht d rfl
      refine ⟨dd, hdd, ?_⟩
      omega

/-- The public `wait()` is never early if the backend's is not: interruptions and retries included. -/
theorem wait_not_early {wd : World} {sysWait clear maxNs cap} (fuel : Nat) (hmax : maxNs < durLimit)
    (hc : ClockOk wd) (hb : BackendNotEarly wd cap maxNs sysWait) :
    NotEarly wd cap (libWait wd sysWait clear maxNs fuel) := by
  constructor
  · intro w buf t r w' buf' h
    obtain ⟨h1, h2⟩ := deadline_facts hc maxNs t w
    have := (libLoop_notEarly hmax hc hb _ (fun x hx => (h2 x hx).1) _ _ _ _ _ _ h).1
    omega
  · intro w buf t w' buf' h
    obtain ⟨h1, h2⟩ := deadline_facts hc maxNs t w
    obtain ⟨d, hd, h3⟩ := (libLoop_notEarly hmax hc hb _ (fun x hx => (h2 x hx).1) _ _ _ _ _ _ h).2 rfl
    obtain ⟨_, t', rfl, h4⟩ := h2 d hd
    exact ⟨t', rfl, by omega⟩

/-! ### Backends -/

/-- OS contract for `epoll_wait`, `timerfd_settime` and `epoll_ctl`.  `timer w` is the absolute time at which
the timerfd next becomes readable. -/
structure EpollOs (wd : World) where
  hasTimerFd : Bool
  timer : wd.W → Option Nat
  settime : wd.W → Int × Int → Res × wd.W
  epoll : wd.W → wd.Buf → Int → Ret × wd.W × wd.Buf
  finish : wd.W → Res × wd.W
  settime_mono : ∀ w v, wd.time w ≤ wd.time (settime w v).2
  epoll_mono : ∀ w b ms, wd.time w ≤ wd.time (epoll w b ms).2.1
  finish_mono : ∀ w, wd.time w ≤ wd.time (finish w).2
  /-- a timer set to `v ≠ 0` expires no earlier than `v` after the call; a zero setting disarms it -/
  settime_ok : ∀ w v w', settime w v = (.ok, w') → (v = (0, 0) → timer w' = none) ∧
    ∀ T, timer w' = some T → (wd.time w : Int) + (v.1 * 1000000000 + v.2) ≤ T
  no_timer : hasTimerFd = false → ∀ w, timer w = none
  /-- `epoll_wait` gives up only after its own limit, or because the timerfd became readable -/
  epoll_expired : ∀ w b ms w' b', epoll w b ms = (.expired, w', b') →
    (0 ≤ ms ∧ (wd.time w : Int) + ms * 1000000 ≤ wd.time w') ∨ (∃ T, timer w = some T ∧ T ≤ wd.time w')

/-- epoll with a timerfd: never early, without any cap. -/
theorem epoll_timerfd_not_early {wd : World} (os : EpollOs wd) (htf : os.hasTimerFd = true) (cap : Nat) :
    BackendNotEarly wd cap unixMaxNs
      (fun w b t => some (epollWait wd os.hasTimerFd os.settime os.epoll os.finish w b t)) := by
  constructor
  · intro w buf t r w' buf' h
    simp only [Option.some.injEq, epollWait, htf, if_true] at h
    have h1 := os.settime_mono w (timerValue t)
    rcases hs : os.settime w (timerValue t) with ⟨rs, w₁⟩
    rw [hs] at h h1
    cases rs with
    | err e => simp only [Prod.mk.injEq] at h; obtain ⟨_, rfl, _⟩ := h; exact h1
    | ok =>
      simp only at h h1
      have h2 := os.epoll_mono w₁ buf (epollTimeoutMs true t)
      rcases he : os.epoll w₁ buf (epollTimeoutMs true t) with ⟨re, w₂, b₂⟩
      rw [he] at h h2
      have h3 := os.finish_mono w₂
      rcases hf : os.finish w₂ with ⟨rf, w₃⟩
      rw [hf] at h3
      cases re with
      | err e => simp only [Prod.mk.injEq] at h; obtain ⟨_, rfl, _⟩ := h; simp only at *; omega
      | _ => simp only [hf] at h; cases rf <;> (simp only [Prod.mk.injEq] at h; obtain ⟨_, rfl, _⟩ := h; simp only at *; omega)
  · intro w buf t w' buf' ht h
    simp only [Option.some.injEq, epollWait, htf, if_true] at h
    have h1 := os.settime_mono w (timerValue t)
    have h1' := os.settime_ok w (timerValue t)
    rcases hs : os.settime w (timerValue t) with ⟨rs, w₁⟩
    rw [hs] at h h1
    cases rs with
    | err e => simp at h
    | ok =>
      obtain ⟨hz, hT⟩ := h1' w₁ hs
      simp only at h h1
      rcases he : os.epoll w₁ buf (epollTimeoutMs true t) with ⟨re, w₂, b₂⟩
      rw [he] at h
      have h3 := os.finish_mono w₂
      rcases hf : os.finish w₂ with ⟨rf, w₃⟩
      rw [hf] at h3
      have hre : re = .expired ∧ w₃ = w' := by
        cases re <;> cases rf <;> simp_all
      obtain ⟨rfl, rfl⟩ := hre
      rcases os.epoll_expired _ _ _ _ _ he with ⟨hms, hel⟩ | ⟨T, hTe, hTl⟩
      · cases t with
        | none => simp [epollTimeoutMs] at hms
        | some d =>
          refine ⟨d, rfl, ?_⟩
          by_cases h0 : d.ns = 0
          · simp only [epollTimeoutMs, h0, if_true] at hel
            simp only at h3
            omega
          · simp [epollTimeoutMs, h0] at hms
      · cases t with
        | none => simp [hz rfl] at hTe
        | some d =>
          refine ⟨d, rfl, ?_⟩
          have hfd : C11.FromDeadline d := ⟨d.ns, 0, ht d rfl, by
            cases d with | mk n hn => simp [saturatingSince]; unfold durLimit at *; omega⟩
          have := (C11.timer_value_exact d hfd).2.2.2.1
          have := hT T hTe
          simp only at h3
          omega

/-- epoll without a timerfd: never early, up to the largest millisecond argument. -/
theorem epoll_fallback_not_early {wd : World} (os : EpollOs wd) (htf : os.hasTimerFd = false) :
    BackendNotEarly wd capI32Ns unixMaxNs
      (fun w b t => some (epollWait wd os.hasTimerFd os.settime os.epoll os.finish w b t)) := by
  constructor
  · intro w buf t r w' buf' h
    simp only [Option.some.injEq, epollWait, htf, Bool.false_eq_true, if_false] at h
    have h2 := os.epoll_mono w buf (epollTimeoutMs false t)
    rcases he : os.epoll w buf (epollTimeoutMs false t) with ⟨re, w₂, b₂⟩
    rw [he] at h h2
    have h3 := os.finish_mono w₂
    rcases hf : os.finish w₂ with ⟨rf, w₃⟩
    rw [hf] at h3
    cases re with
    | err e => simp only [Prod.mk.injEq] at h; obtain ⟨_, rfl, _⟩ := h; omega
    | _ => simp only [hf] at h; cases rf <;> (simp only [Prod.mk.injEq] at h; obtain ⟨_, rfl, _⟩ := h; simp only at *; omega)
  · intro w buf t w' buf' ht h
    simp only [Option.some.injEq, epollWait, htf, Bool.false_eq_true, if_false] at h
    rcases he : os.epoll w buf (epollTimeoutMs false t) with ⟨re, w₂, b₂⟩
    rw [he] at h
    have h3 := os.finish_mono w₂
    rcases hf : os.finish w₂ with ⟨rf, w₃⟩
    rw [hf] at h3
    have hre : re = .expired ∧ w₃ = w' := by
      cases re <;> cases rf <;> simp_all
    obtain ⟨rfl, rfl⟩ := hre
    rcases os.epoll_expired _ _ _ _ _ he with ⟨hms, hel⟩ | ⟨T, hTe, hTl⟩
    · cases t with
      | none => simp [epollTimeoutMs] at hms
      | some d =>
        refine ⟨d, rfl, ?_⟩
        by_cases h0 : d.ns = 0
        · simp only [epollTimeoutMs, h0, if_true] at hel
          simp only at h3
          omega
        · rw [epollMs_eq d h0] at hel
          unfold capI32Ns
          simp only at h3
          omega
    · rw [os.no_timer htf] at hTe; simp at hTe

/-- kqueue and event ports: the timeout goes to the OS call unchanged, so its contract carries over. -/
theorem direct_not_early {wd : World} (cap : Nat)
    (sysWait : wd.W → wd.Buf → Option Duration → Ret × wd.W × wd.Buf) (finish : wd.W → Res × wd.W)
    (finish_mono : ∀ w, wd.time w ≤ wd.time (finish w).2)
    (os_mono : ∀ w b t, wd.time w ≤ wd.time (sysWait w b t).2.1)
    (os_expired : ∀ w b t w' b', sysWait w b t = (.expired, w', b') →
      ∃ d : Duration, t = some d ∧ wd.time w + d.ns ≤ wd.time w') :
    BackendNotEarly wd cap unixMaxNs (fun w b t => some (directWait wd sysWait finish w b t)) := by
  constructor
  · intro w buf t r w' buf' h
    simp only [Option.some.injEq, directWait] at h
    have h2 := os_mono w buf t
    rcases he : sysWait w buf t with ⟨re, w₂, b₂⟩
    rw [he] at h h2
    have h3 := finish_mono w₂
    rcases hf : finish w₂ with ⟨rf, w₃⟩
    rw [hf] at h3
    cases re with
    | err e => simp only [Prod.mk.injEq] at h; obtain ⟨_, rfl, _⟩ := h; omega
    | _ => simp only [hf] at h; cases rf <;> (simp only [Prod.mk.injEq] at h; obtain ⟨_, rfl, _⟩ := h; simp only at *; omega)
  · intro w buf t w' buf' _ h
    simp only [Option.some.injEq, directWait] at h
    rcases he : sysWait w buf t with ⟨re, w₂, b₂⟩
    rw [he] at h
    have h3 := finish_mono w₂
    rcases hf : finish w₂ with ⟨rf, w₃⟩
    rw [hf] at h3
    have hre : re = .expired ∧ w₃ = w' := by
      cases re <;> cases rf <;> simp_all
    obtain ⟨rfl, rfl⟩ := hre
    obtain ⟨d, rfl, h5⟩ := os_expired _ _ _ _ _ he
    exact ⟨d, rfl, by simp only at h3; omega⟩

/-- OS contract for `poll(2)` and the other steps of poll.rs `wait`. -/
structure PollOs (wd : World) where
  pre : wd.W → Pre × wd.W
  poll : wd.W → wd.Buf → Int → Ret × wd.W × wd.Buf
  again : wd.W → Bool × wd.W
  pre_mono : ∀ w, wd.time w ≤ wd.time (pre w).2
  /-- a return before polling happens only because of a notification (or an error) -/
  pre_ret : ∀ w, (pre w).1 ≠ .ret .expired
  again_mono : ∀ w, wd.time w ≤ wd.time (again w).2
  poll_mono : ∀ w b ms, wd.time w ≤ wd.time (poll w b ms).2.1
  poll_expired : ∀ w b ms w' b', poll w b ms = (.expired, w', b') →
    0 ≤ ms ∧ (wd.time w : Int) + ms * 1000000 ≤ wd.time w'

theorem pollLoop_notEarly {wd : World} (os : PollOs wd) (hc : ClockOk wd) {maxNs} (hmax : maxNs < durLimit)
    (deadline : Option Nat) (hd : ∀ d, deadline = some d → d ≤ maxNs) (fuel : Nat) (w : wd.W) (buf : wd.Buf)
    (r : Ret) (w' : wd.W) (buf' : wd.Buf)
    (h : pollLoop wd os.pre os.poll os.again deadline fuel w buf = some (r, w', buf')) :
    wd.time w ≤ wd.time w' ∧
    (r = .expired → ∃ d, deadline = some d ∧ (d ≤ wd.time w' ∨ wd.time w + capI32Ns ≤ wd.time w')) := by
  induction fuel generalizing w buf with
  | zero => simp [pollLoop] at h
  | succ n ih =>
    unfold pollLoop at h
    have h1 := os.pre_mono w
    have h1r := os.pre_ret w
    rcases hp : os.pre w with ⟨pr, w₁⟩
    rw [hp] at h h1 h1r
    cases pr with
    | ret x =>
      simp only [Option.some.injEq, Prod.mk.injEq] at h
      obtain ⟨rfl, rfl, rfl⟩ := h
      refine ⟨h1, ?_⟩
      rintro rfl
      exact absurd rfl h1r
    | poll =>
      simp only at h h1
      obtain ⟨hw, hr⟩ := remaining_facts hc hmax deadline hd w₁
      generalize (readRemaining wd deadline w₁).2 = w₂ at *
      generalize (readRemaining wd deadline w₁).1 = rem at *
      have h4 := os.poll_mono w₂ buf (pollTimeoutMs rem)
      rcases hpo : os.poll w₂ buf (pollTimeoutMs rem) with ⟨rp, w₃, b₃⟩
      rw [hpo] at h h4
      simp only at h4
      cases rp with
      | err e =>
        simp only [Option.some.injEq, Prod.mk.injEq] at h
        obtain ⟨rfl, rfl, rfl⟩ := h
        exact ⟨by omega, by simp⟩
      | expired =>
        simp only [Option.some.injEq, Prod.mk.injEq] at h
        obtain ⟨rfl, rfl, rfl⟩ := h
        refine ⟨by omega, fun _ => ?_⟩
        obtain ⟨hms, hel⟩ := os.poll_expired _ _ _ _ _ hpo
        cases rem with
        | none => simp [pollTimeoutMs] at hms
        | some t =>
          obtain ⟨d, now, hdd, hns, h6, h7⟩ := hr t rfl
          refine ⟨d, hdd, ?_⟩
          rw [pollMs_eq] at hel
          unfold capI32Ns
          omega
      | busy =>
        simp only at h
        have h5 := os.again_mono w₃
        rcases ha : os.again w₃ with ⟨ra, w₄⟩
        rw [ha] at h h5
        simp only at h5
        cases ra with
        | true =>
          obtain ⟨h8, h9⟩ := ih _ _ h
          refine ⟨by omega, fun hrr => ?_⟩
          obtain ⟨d, hd1, hd2⟩ := h9 hrr
          exact ⟨d, hd1, by omega⟩
        | false =>
          simp only [Option.some.injEq, Prod.mk.injEq] at h
          obtain ⟨rfl, rfl, rfl⟩ := h
          exact ⟨by omega, by simp⟩

/-- poll: never early, up to the largest millisecond argument, however often registration calls of other
threads made it poll again. -/
theorem poll_not_early {wd : World} (os : PollOs wd) (hc : ClockOk wd) (fuel : Nat) :
    BackendNotEarly wd capI32Ns unixMaxNs (pollWait wd os.pre os.poll os.again unixMaxNs fuel) := by
  have hmax : unixMaxNs < durLimit := by decide
  constructor
  · intro w buf t r w' buf' h
    obtain ⟨h1, h2⟩ := deadline_facts hc unixMaxNs t w
    have := (pollLoop_notEarly os hc hmax _ (fun x hx => (h2 x hx).1) _ _ _ _ _ _ h).1
    omega
  · intro w buf t w' buf' _ h
    obtain ⟨h1, h2⟩ := deadline_facts hc unixMaxNs t w
    obtain ⟨d, hd, h3⟩ := (pollLoop_notEarly os hc hmax _ (fun x hx => (h2 x hx).1) _ _ _ _ _ _ h).2 rfl
    obtain ⟨_, t', rfl, h4⟩ := h2 d hd
    exact ⟨t', rfl, by omega⟩

/-- The steps of the IOCP loop; only that time does not run backwards is assumed of them. -/
structure IocpOs (wd : World) where
  drain : wd.W → Res × wd.W
  portWait : wd.W → wd.Buf → Nat → Ret × wd.W × wd.Buf
  process : wd.W → wd.Buf → Proc × wd.W × wd.Buf
  drain_mono : ∀ w, wd.time w ≤ wd.time (drain w).2
  portWait_mono : ∀ w b ms, wd.time w ≤ wd.time (portWait w b ms).2.1
  process_mono : ∀ w b, wd.time w ≤ wd.time (process w b).2.1

theorem iocpLoop_notEarly {wd : World} (os : IocpOs wd) (hc : ClockOk wd) {maxNs} (hmax : maxNs < durLimit)
    (deadline : Option Nat) (hd : ∀ d, deadline = some d → d ≤ maxNs) (fuel : Nat) (nt : Bool) (w : wd.W)
    (buf : wd.Buf) (r : Ret) (w' : wd.W) (buf' : wd.Buf)
    (h : iocpLoop wd os.drain os.portWait os.process deadline fuel nt w buf = some (r, w', buf')) :
    wd.time w ≤ wd.time w' ∧ (r = .expired → ∃ d, deadline = some d ∧ d ≤ wd.time w') := by
  induction fuel generalizing nt w buf with
  | zero => simp [iocpLoop] at h
  | succ n ih =>
    unfold iocpLoop at h
    have h1 := os.drain_mono w
    rcases hdr : os.drain w with ⟨rd, w₁⟩
    rw [hdr] at h h1
    cases rd with
    | err e =>
      simp only [Option.some.injEq, Prod.mk.injEq] at h
      obtain ⟨rfl, rfl, rfl⟩ := h
      exact ⟨h1, by simp⟩
    | ok =>
      simp only at h h1
      obtain ⟨hw, hr⟩ := remaining_facts hc hmax deadline hd w₁
      generalize (readRemaining wd deadline w₁).2 = w₂ at *
      generalize (readRemaining wd deadline w₁).1 = rem at *
      have h4 := os.portWait_mono w₂ buf (iocpTimeoutMs rem)
      rcases hpo : os.portWait w₂ buf (iocpTimeoutMs rem) with ⟨rp, w₃, b₃⟩
      rw [hpo] at h h4
      simp only at h4
      have h5 := os.process_mono w₃ b₃
      rcases hpr : os.process w₃ b₃ with ⟨pr, w₄, b₄⟩
      rw [hpr] at h5
      simp only at h5
      have rest : (match ((pr, w₄, b₄) : Proc × wd.W × wd.Buf) with
            | (.err e, w, buf) => some (Ret.err e, w, buf)
            | (.ok n' new, w, buf) =>
              if (nt || n') || decide (new > 0) then some (.busy, w, buf)
              else if timeoutIsEmpty rem then some (.expired, w, buf)
              else iocpLoop wd os.drain os.portWait os.process deadline n (nt || n') w buf) = some (r, w', buf') →
          wd.time w ≤ wd.time w' ∧ (r = .expired → ∃ d, deadline = some d ∧ d ≤ wd.time w') := by
        intro hm
        cases pr with
        | err e =>
          simp only [Option.some.injEq, Prod.mk.injEq] at hm
          obtain ⟨rfl, rfl, rfl⟩ := hm
          exact ⟨by omega, by simp⟩
        | ok n' new =>
          simp only at hm
          split at hm
          · simp only [Option.some.injEq, Prod.mk.injEq] at hm
            obtain ⟨rfl, rfl, rfl⟩ := hm
            exact ⟨by omega, by simp⟩
          · split at hm
            · next hz =>
              simp only [Option.some.injEq, Prod.mk.injEq] at hm
              obtain ⟨rfl, rfl, rfl⟩ := hm
              refine ⟨by omega, fun _ => ?_⟩
              cases rem with
              | none => simp [timeoutIsEmpty] at hz
              | some t =>
                obtain ⟨d, now, hdd, hns, h6, _⟩ := hr t rfl
                refine ⟨d, hdd, ?_⟩
                simp only [timeoutIsEmpty, Bool.and_eq_true, beq_iff_eq, Duration.asSecs, Duration.subsecNanos] at hz
                omega
            · obtain ⟨h8, h9⟩ := ih _ _ _ hm
              exact ⟨by omega, h9⟩
      cases rp with
      | err e =>
        simp only [Option.some.injEq, Prod.mk.injEq] at h
        obtain ⟨rfl, rfl, rfl⟩ := h
        exact ⟨by omega, by simp⟩
      | busy => simp only [hpr] at h; exact rest h
      | expired => simp only [hpr] at h; exact rest h

/-- IOCP: never early and without cap, whatever the completion port does (the loop re-checks its own deadline). -/
theorem iocp_not_early {wd : World} (os : IocpOs wd) (hc : ClockOk wd) (fuel cap : Nat) :
    BackendNotEarly wd cap windowsMaxNs (iocpWait wd os.drain os.portWait os.process windowsMaxNs fuel) := by
  have hmax : windowsMaxNs < durLimit := by decide
  constructor
  · intro w buf t r w' buf' h
    obtain ⟨h1, h2⟩ := deadline_facts hc windowsMaxNs t w
    have := (iocpLoop_notEarly os hc hmax _ (fun x hx => (h2 x hx).1) _ _ _ _ _ _ _ h).1
    omega
  · intro w buf t w' buf' _ h
    obtain ⟨h1, h2⟩ := deadline_facts hc windowsMaxNs t w
    obtain ⟨d, hd, h3⟩ := (iocpLoop_notEarly os hc hmax _ (fun x hx => (h2 x hx).1) _ _ _ _ _ _ _ h).2 rfl
    obtain ⟨_, t', rfl, h4⟩ := h2 d hd
    exact ⟨t', rfl, by omega⟩

/-! ### Whole-stack statements -/

/-- C09 on epoll with timerfd. -/
theorem epoll_timerfd_wait_not_early {wd : World} (os : EpollOs wd) (htf : os.hasTimerFd = true)
    (hc : ClockOk wd) (clear : wd.Buf → wd.Buf) (fuel : Nat) (w : wd.W) (buf : wd.Buf) (t : Duration)
    (w' : wd.W) (buf' : wd.Buf)
    (h : libWait wd (fun w b t => some (epollWait wd os.hasTimerFd os.settime os.epoll os.finish w b t)) clear
      unixMaxNs fuel w buf (some t) = some (.expired, w', buf')) :
    wd.time w + t.ns ≤ wd.time w' := by
  obtain ⟨d, hd, h2⟩ := (wait_not_early fuel (by decide) hc (epoll_timerfd_not_early os htf durLimit)).expired
    _ _ _ _ _ h
  obtain rfl := Option.some.inj hd
  have := t.lt
  omega

/-- C09 on epoll without timerfd. -/
theorem epoll_fallback_wait_not_early {wd : World} (os : EpollOs wd) (htf : os.hasTimerFd = false)
    (hc : ClockOk wd) (clear : wd.Buf → wd.Buf) (fuel : Nat) (w : wd.W) (buf : wd.Buf) (t : Duration)
    (w' : wd.W) (buf' : wd.Buf)
    (h : libWait wd (fun w b t => some (epollWait wd os.hasTimerFd os.settime os.epoll os.finish w b t)) clear
      unixMaxNs fuel w buf (some t) = some (.expired, w', buf')) :
    wd.time w + min t.ns capI32Ns ≤ wd.time w' := by
  obtain ⟨d, hd, h2⟩ := (wait_not_early fuel (by decide) hc (epoll_fallback_not_early os htf)).expired _ _ _ _ _ h
  obtain rfl := Option.some.inj hd
  exact h2

/-- C09 on poll. -/
theorem poll_wait_not_early {wd : World} (os : PollOs wd) (hc : ClockOk wd) (clear : wd.Buf → wd.Buf)
    (fuel fuel' : Nat) (w : wd.W) (buf : wd.Buf) (t : Duration) (w' : wd.W) (buf' : wd.Buf)
    (h : libWait wd (pollWait wd os.pre os.poll os.again unixMaxNs fuel') clear
      unixMaxNs fuel w buf (some t) = some (.expired, w', buf')) :
    wd.time w + min t.ns capI32Ns ≤ wd.time w' := by
  obtain ⟨d, hd, h2⟩ := (wait_not_early fuel (by decide) hc (poll_not_early os hc fuel')).expired _ _ _ _ _ h
  obtain rfl := Option.some.inj hd
  exact h2

/-- C09 on IOCP. -/
theorem iocp_wait_not_early {wd : World} (os : IocpOs wd) (hc : ClockOk wd) (clear : wd.Buf → wd.Buf)
    (fuel fuel' : Nat) (w : wd.W) (buf : wd.Buf) (t : Duration) (w' : wd.W) (buf' : wd.Buf)
    (h : libWait wd (iocpWait wd os.drain os.portWait os.process windowsMaxNs fuel') clear
      windowsMaxNs fuel w buf (some t) = some (.expired, w', buf')) :
    wd.time w + t.ns ≤ wd.time w' := by
  obtain ⟨d, hd, h2⟩ := (wait_not_early fuel (by decide) hc (iocp_not_early os hc fuel' durLimit)).expired _ _ _ _ _ h
  obtain rfl := Option.some.inj hd
  have := t.lt
  omega

/-- C09 on kqueue and event ports. -/
theorem direct_wait_not_early {wd : World}
    (sysWait : wd.W → wd.Buf → Option Duration → Ret × wd.W × wd.Buf) (finish : wd.W → Res × wd.W)
    (finish_mono : ∀ w, wd.time w ≤ wd.time (finish w).2)
    (os_mono : ∀ w b t, wd.time w ≤ wd.time (sysWait w b t).2.1)
    (os_expired : ∀ w b t w' b', sysWait w b t = (.expired, w', b') →
      ∃ d : Duration, t = some d ∧ wd.time w + d.ns ≤ wd.time w')
    (hc : ClockOk wd) (clear : wd.Buf → wd.Buf) (fuel : Nat) (w : wd.W) (buf : wd.Buf) (t : Duration)
    (w' : wd.W) (buf' : wd.Buf)
    (h : libWait wd (fun w b t => some (directWait wd sysWait finish w b t)) clear
      unixMaxNs fuel w buf (some t) = some (.expired, w', buf')) :
    wd.time w + t.ns ≤ wd.time w' := by
  obtain ⟨d, hd, h2⟩ := (wait_not_early fuel (by decide) hc
    (direct_not_early durLimit sysWait finish finish_mono os_mono os_expired)).expired _ _ _ _ _ h
  obtain rfl := Option.some.inj hd
  have := t.lt
  omega

/-! ### The hypotheses are met by a concrete OS -/

/-- A world: (time, remaining interruptions, timer). Every clock reading takes 3 ns. -/
@[reducible] def toy : World where
  W := Nat × Nat × Option Nat
  Buf := Unit
  time w := w.1
  clock w := (w.1 + 1, (w.1 + 3, w.2))

theorem toy_clock : ClockOk toy := by
  intro w; simp

/-- An OS that obeys the epoll contract: each call is interrupted 5 ns in while interruptions remain,
otherwise it sleeps exactly as long as asked. -/
def toyEpoll : EpollOs toy where
  hasTimerFd := true
  timer w := w.2.2
  settime w v := (.ok, (w.1 + 1, w.2.1, if v = (0, 0) then none else some (w.1 + (v.1 * 1000000000 + v.2).toNat)))
  epoll w _ ms := match w with
    | (t, k + 1, tm) => (.err .interrupted, (t + 5, k, tm), ())
    | (t, 0, tm) =>
      if ms = 0 then (.expired, (t, 0, tm), ())
      else match tm with
        | some T => (.expired, (max t T, 0, tm), ())
        | none => (.busy, (t, 0, tm), ())
  finish w := (.ok, w)
  settime_mono := by intro w v; simp
  epoll_mono := by
    rintro ⟨t, k, tm⟩ b ms
    rcases k with _ | k
    · simp only; split
      · simp
      · cases tm
        · simp
        · simp only; omega
    · simp
  finish_mono := by intro w; simp
  settime_ok := by
    intro w v w' h
    simp only [Prod.mk.injEq, true_and] at h
    subst h
    refine ⟨fun h => by simp [h], fun T hT => ?_⟩
    simp only
    split at hT
    · simp at hT
    · simp only [Option.some.injEq] at hT; omega
  no_timer := by simp
  epoll_expired := by
    rintro ⟨t, k, tm⟩ b ms w' b' h
    rcases k with _ | k
    · simp only at h
      split at h
      · next h0 => simp only [Prod.mk.injEq] at h; obtain ⟨_, rfl, _⟩ := h; left; simp [h0]
      · cases tm with
        | none => simp at h
        | some T =>
          simp only [Prod.mk.injEq] at h; obtain ⟨_, rfl, _⟩ := h
          right; exact ⟨T, rfl, by simp; omega⟩
    · simp at h

/-- A concrete wait of 1000 ns with two interruptions that expires (the hypothesis of the theorem above). -/
example : (libWait toy (fun w b t => some (epollWait toy true toyEpoll.settime toyEpoll.epoll toyEpoll.finish w b t))
    id unixMaxNs 10 (100, 2, none) () (some ⟨1000, by decide⟩)).map (fun r => (r.1, r.2.1.1))
    = some (.expired, 1103) := by decide

end Polling.C09
