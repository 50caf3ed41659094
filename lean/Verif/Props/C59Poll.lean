import Verif.Proof.PollTimeout
import Verif.Props.C34Poll

/-! C59: a timeout ends the wait: the runs of the `poll(2)` poller, with everything other threads do meanwhile. -/

namespace Polling.C59
open Spec PollB PollP

/-- A `poll(2)` poller, at any moment of any execution.  The latest `wait` was given the timeout `T`, it is in `poll()`, and `T` has passed
since it began, plus less than a millisecond, plus the time that its latest entry into the backend took between the two readings of the
clock (`lag`).  Then `poll()` can return at once, whatever it reports, and `wait` comes to its end by its own steps.  Missing for the full
property: there is a byte of a registration call in the channel and nothing else to report; then `wait` polls again, see `poll_wait_delayed`. -/
theorem poll_timeout_ends_partial (c : Cfg) (P : PollC.Act → Prop) (s : PollC.S) (l : List (PollC.Act × PollC.Obs))
    (h : Runs (fun s => ∃ now, s = PollC.init c now) (PollC.step c) P s l) (t : Tid) (b : Bool) (hp : s.p.pc t = .wPoll b)
    (T : Nat) (hT : timeoutOf (l.filterMap PollC.handT) = some T) (hnow : s.now ≤ unixMaxNs)
    (hover : T + PollC.lag l + 999999 ≤ spent (l.filterMap PollC.handT))
    (os : Fd → PollFlags.Flags → PollFlags.Flags) (hos : decide (os c.n.readFd c.n.flags ≠ 0#16) = decide (s.p.chan > 0))
    (hfree : s.p.chan = 0 ∨ s.p.notified = true ∨ 1 < (osPoll os s.p.tbl.pollFds).2) :
    ∃ acts s' l' n evs, runLog (PollC.step c) s (.act t (.waitPoll os) :: acts) l = some (s', l') ∧ (∀ a ∈ acts, ∃ x, a = .act t x) ∧
      l'.head?.map (fun x => x.2.1) = some (some (.waitOk t n evs)) ∧ s'.now = s.now ∧ s'.p.pc t = .out := by
  obtain ⟨tr, hr⟩ := PollC.reach_inner h
  obtain ⟨i1, i2, _, _, _, _, i7, i8⟩ := PollC.reach_dl h
  have hb : b = true := by
    have := i8 t b (by rw [hp]; rfl)
    rw [hT] at this; exact this.symm
  subst hb
  have hdl := i2 T hT (by omega)
  obtain ⟨m1, m2⟩ := i7 t true hp _ hdl (by omega) hnow
  have hover : PollC.overdue s = true := by
    unfold PollC.overdue
    simp only [Bool.and_eq_true, decide_eq_true_eq]
    refine ⟨m1, ?_⟩
    rcases m2 with m2 | m2
    · refine Nat.le_trans m2 ?_; omega
    · exact m2
  obtain ⟨s1, acts, s', obs, n, evs, h1, h2, h3, h4⟩ := C05.timed_wait_returns hr hp os hos hfree
  have hs : PollC.step c s (.act t (.waitPoll os)) = some ({ s with p := s1 }, (some .tau, PollC.gaveUp s.p os)) := by
    simp only [PollC.step, hover, Bool.not_true, Bool.and_false, Bool.false_eq_true, if_false, PollC.inner, h1, Option.map_some, id]
  obtain ⟨s2, l2, f1, f2, f3, f4⟩ := PollC.lift_run (c := c) acts (s := { s with p := s1 })
    (l := (.act t (.waitPoll os), (some .tau, PollC.gaveUp s.p os)) :: l) (fun x hx => (h2 x hx).2) h3
  refine ⟨acts.map fun x => .act x.1 x.2, s2, l2, n, evs, ?_, ?_, ?_, f3, by rw [f2]; exact h4⟩
  · simp only [runLog, hs, Option.bind_some]; exact f1
  · intro a ha
    rw [List.mem_map] at ha
    obtain ⟨x, hx, rfl⟩ := ha
    exact ⟨x.2, by rw [(h2 x hx).1]⟩
  · have := congrArg List.head? f4
    rw [List.head?_map] at this
    rw [this]; rfl

/-- 4.5 milliseconds; the entry into the backend takes three nanoseconds between the readings of the clock; a signal after two
milliseconds, and then one nanosecond.  The `poll()` is one of three milliseconds, so one nanosecond before that `wait` cannot end, and
then it can; the theorem speaks of the moment 499998 nanoseconds later. -/
example :
    let start : List PollC.Act := [.tick 9, .wait 0 (some ⟨4500000, by decide⟩), .remaining, .tick 3, .deadline, .act 0 .waitLock, .act 0 .waitSwap, .act 0 .waitLoad,
      .tick 2000000, .act 0 (.waitPollFail .interrupted), .act 0 .waitUnlock, .act 0 .waitFinish, .remaining, .tick 1, .deadline, .act 0 .waitLock, .act 0 .waitSwap,
      .act 0 .waitLoad]
    let go : List PollC.Act := [.act 0 (.waitPoll fun _ _ => 0#16), .act 0 (.waitSwap2 []), .act 0 .waitUnlock, .act 0 .waitFinish]
    let s0 := PollC.init C34.exCfg 7000
    (runLog (PollC.step C34.exCfg) s0 (start ++ .tick 2999999 :: go) []).isSome = false ∧
    (runLog (PollC.step C34.exCfg) s0 (start ++ .tick 3000000 :: go) []).isSome = true ∧
    ((runLog (PollC.step C34.exCfg) s0 (start ++ [.tick 3499996]) []).map fun r =>
      ((match r.1.p.pc 0 with | .wPoll b => b | _ => false), timeoutOf (r.2.filterMap PollC.handT), PollC.lag r.2, spent (r.2.filterMap PollC.handT), r.1.p.chan)) =
      some (true, some 4500000, 1, 5500000, 0) := by
  refine ⟨?_, ?_, ?_⟩ <;> decide +kernel

end Polling.C59
