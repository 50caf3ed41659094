import Verif.Proof.EpollDue
import Verif.Props.C04Epoll
import Verif.Proof.EpollQueue

/-! C59: a timeout ends the wait: the runs of the epoll and event-port pollers, with everything other threads do meanwhile. -/

namespace Polling.C59
open Spec

/-- A `wait(Some(t))` on the epoll poller, begun in any reachable state `s0`; meanwhile anything happens.  `s2` is a state in which it
is at the top of its loop: it was just begun, or its OS call was just interrupted.  Later, in `s3`, it is in `epoll_wait`, entered at
`t0`.  Once the time that was left in `s2` has passed since `t0` (without a timerfd: rounded up to milliseconds, less than one
millisecond more), `epoll_wait` can return at once, whatever else holds, and `wait` then comes to its end by its own steps.  So if it gets
from its loop to the OS call in no time, it returns when `t` has passed since it began, however often it was interrupted. -/
theorem epoll_timeout_ends (c : EpollM.Cfg) (hok : c.Ok) (s0 : EpollM.S) (tr : List (Obs Epoll.EventExtra)) (h : EpollM.Reach c s0 tr)
    (t : Duration) (cap : Nat) (s1 : EpollM.S) (hb : EpollM.step c s0 (.waitBegin (some t) cap) = some (s1, .waitBegin))
    (hrep : s0.k.time + t.ns ≤ unixMaxNs)
    (acts1 : List EpollM.Act) (s2 : EpollM.S) (obs1 : List (Obs Epoll.EventExtra)) (hr1 : EpollM.runActs c s1 acts1 = some (s2, obs1))
    (hok1 : ∀ n evs, .waitOk n evs ∉ obs1) (herr1 : ∀ e, .waitErr e ∉ obs1) (dl2 cap2) (hp2 : s2.phase = .top dl2 cap2)
    (acts2 : List EpollM.Act) (s3 : EpollM.S) (obs2 : List (Obs Epoll.EventExtra)) (hr2 : EpollM.runActs c s2 acts2 = some (s3, obs2))
    (hok2 : ∀ n evs, .waitOk n evs ∉ obs2) (herr2 : ∀ e, .waitErr e ∉ obs2) (dl3 cap3 to3 t0) (hp3 : s3.phase = .polling dl3 cap3 to3 t0)
    (hnow : t0 + (s0.k.time + t.ns - s2.k.time) + (if c.hasTimer then 0 else 999999) ≤ s3.k.time) :
    ∃ m s4 n evs obs, EpollM.runActs c s3 (.epollReturn :: (List.replicate m .clearRead ++ [.rearm none, .finish])) =
      some (s4, .waitOk n evs :: obs) ∧ s4.k.time = s3.k.time := by
  have hdl : instantCheckedAdd unixMaxNs s0.k.time t = some (s0.k.time + t.ns) := by
    unfold instantCheckedAdd; rw [if_pos hrep]
  have h1 : EpollM.Since s0.k.time (some (s0.k.time + t.ns)) s1 := by
    simp only [EpollM.step] at hb
    split at hb
    · split at hb <;> cases hb
      refine ⟨Nat.le_refl _, ?_⟩
      simp only [Option.bind_some, hdl]
    · cases hb
  have h2 := EpollM.run_since acts1 h1 hr1 hok1 herr1
  have hr2' := EpollM.run_reach (.step h hb) hr1
  have hr3 := EpollM.run_reach hr2' hr2
  have hdl2 : dl2 = some (s0.k.time + t.ns) := by
    unfold EpollM.Since at h2; rw [hp2] at h2; exact h2.2
  have h3 := EpollM.run_due (b := s2.k.time) hrep acts2 ⟨Nat.le_refl _, by rw [hp2]; exact hdl2⟩ (by rw [hp2]; exact hdl2) hr2 hok2 herr2
  have hcap := EpollM.reach_cap hr3
  have hl := (EpollM.reach_kinv hok hr3).l
  rw [hp3] at h3 hcap
  obtain ⟨_, ht0, r, ⟨tc, hb2, _, hto, hr⟩, htim⟩ := h3
  have hns := EpollM.since_ns (t := tc) hrep
  have hret : (EpollM.harvest c s3.k cap3).1 ≠ [] ∨ EpollM.timeUp (epollTimeoutMs c.hasTimer to3) t0 s3.k.time = true := by
    subst hto
    by_cases h0 : r = 0
    · right
      have : (saturatingSince (s0.k.time + t.ns) tc).ns = 0 := by rw [hns]; omega
      simp only [epollTimeoutMs, this, if_true]
      exact (C12.timeUp_nat 0 _ _).2 (by omega)
    · cases ht : c.hasTimer with
      | true =>
        left
        obtain ⟨ha, hset⟩ := htim ht
        rcases hset h0 with hk | ⟨x, _, hx1, hx2⟩
        · exact EpollM.timer_ready hl (hok ht) ht ha hk hcap
        · rw [ht] at hnow
          simp only [if_true] at hnow
          omega
      | false =>
        right
        rw [ht] at hnow
        simp only [Bool.false_eq_true, if_false] at hnow
        obtain ⟨ms, hms, hle⟩ : ∃ ms : Nat, epollTimeoutMs false (some (saturatingSince (s0.k.time + t.ns) tc)) = (ms : Int) ∧
            ms * 1000000 ≤ (saturatingSince (s0.k.time + t.ns) tc).ns + 999999 :=
          ⟨_, epollMs_eq _ (by rw [hns]; omega), Nat.le_trans (Nat.mul_le_mul_right _ (Nat.min_le_left _ _)) (Nat.div_mul_le_self _ _)⟩
        rw [hms]
        rw [hns] at hle
        refine (C12.timeUp_nat ms _ _).2 ?_
        omega
  have hstep := EpollM.return_enabled hp3 hret
  obtain ⟨m, s4, obs, hrun, _, _, _, _, htime, _⟩ := C04.epoll_wait_ends c hok _ _ (hr3.step hstep) _ _ _ rfl
  have hall := EpollM.run_append (EpollM.run_one hstep) hrun
  exact ⟨m, s4, _, _, _, hall, by rw [htime]; simp [EpollM.harvest]⟩

/-- The same on event ports, where the OS call gets what is left when it is entered: once `t` has passed since `wait` began, `port_getn`
can return and `wait` ends. -/
theorem port_timeout_ends (n : Nat) (s0 : PortM.S) (t : Duration) (cap : Nat) (s1 : PortM.S)
    (hb : PortM.step n s0 (.waitBegin (some t) cap) = some (s1, .waitBegin)) (hrep : s0.k.time + t.ns ≤ unixMaxNs)
    (acts : List PortM.Act) (s2 : PortM.S) (obs : List (Obs Port.EventExtra)) (hr : PortM.runActs n s1 acts = some (s2, obs))
    (hno : ∀ n evs, .waitOk n evs ∉ obs) (hne : ∀ e, .waitErr e ∉ obs) (dl2 cap2 to2 t0) (hp : s2.phase = .polling dl2 cap2 to2 t0)
    (hnow : s0.k.time + t.ns ≤ s2.k.time) :
    ∃ s3 k evs obs, PortM.runActs n s2 [.getn, .finish] = some (s3, .waitOk k evs :: obs) ∧ s3.k.time = s2.k.time := by
  have hdl : instantCheckedAdd unixMaxNs s0.k.time t = some (s0.k.time + t.ns) := by
    unfold instantCheckedAdd; rw [if_pos hrep]
  have h1 : PortM.Since s0.k.time (some (s0.k.time + t.ns)) s1 := by
    simp only [PortM.step] at hb
    split at hb
    · split at hb <;> cases hb
      refine ⟨Nat.le_refl _, ?_⟩
      simp only [Option.bind_some, hdl]
    · cases hb
  have h2 := PortM.run_since acts h1 hr hno hne
  unfold PortM.Since at h2
  rw [hp] at h2
  obtain ⟨_, ⟨rfl, rfl⟩, ht0⟩ := h2
  by_cases hq : s2.k.queue = []
  · have hup : PortM.timeUp (some (saturatingSince (s0.k.time + t.ns) t0)) t0 s2.k.time = true := by
      have := EpollM.since_ns (t := t0) hrep
      simp only [PortM.timeUp, decide_eq_true_eq]
      omega
    simp only [PortM.runActs, PortM.step, hp, hq, ne_eq, not_true, if_false, hup, if_true, Option.bind_some, Option.map_some]
    exact ⟨_, _, _, _, rfl, rfl⟩
  · simp only [PortM.runActs, PortM.step, hp, ne_eq, hq, not_false_iff, if_true, Option.bind_some, Option.map_some]
    exact ⟨_, _, _, _, rfl, rfl⟩

/-- Five milliseconds; a signal after two, and another one in the middle of getting back to the OS call; another thread adds a source.
One nanosecond before the deadline the OS call cannot return; at the deadline it can, and `wait` ends. -/
example :
    let pre : List EpollM.Act := [.tick 9, .waitBegin (some ⟨5000000, by decide⟩) 4, .compute, .settime none, .armTimer none, .tick 2000000,
      .epollFail .interrupted, .compute, .settime none, .armTimer (some .interrupted), .add 7 (Event.onlyReadable 11) .oneshot none,
      .compute, .settime none, .armTimer none]
    let s0 := EpollM.init EpollM.exCfg fun _ => 0#32
    ((EpollM.runActs EpollM.exCfg s0 (pre ++ [.tick 2999999])).map fun r => (r.1.phase, (EpollM.step EpollM.exCfg r.1 .epollReturn).isSome)) =
      some (.polling (some 5000009) 4 (some ⟨3000000, by decide⟩) 2000009, false) ∧
    ((EpollM.runActs EpollM.exCfg s0 (pre ++ [.tick 3000000, .epollReturn, .clearRead, .rearm none, .finish])).map fun r =>
      (r.1.k.time, r.2.head?)) = some (5000009, some (.waitOk 0 [])) := by
  refine ⟨by decide +kernel, by decide +kernel⟩

/-- The same on event ports. -/
example : ((PortM.runActs 1 (PortM.init fun _ => 0#16) [.tick 9, .waitBegin (some ⟨5000000, by decide⟩) 4, .compute, .tick 2000000,
      .getnFail .interrupted, .compute, .tick 3000000]).map fun r => (r.1.phase, (PortM.runActs 1 r.1 [.getn, .finish]).isSome)) =
      some (.polling (some 5000009) 4 (some ⟨3000000, by decide⟩) 2000009, true) := by
  decide +kernel

end Polling.C59
