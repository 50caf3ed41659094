import Verif.Proof.HandRun
import Verif.Proof.PollClock
import Verif.Proof.KqClock
import Verif.Proof.IocpClock
import Verif.Props.C34Poll
import Verif.Props.KqNotify
import Verif.Props.IocpDelivery

/-!
C67 with timeouts, for the backends whose machine has no clock of its own: at every moment of every execution, no more `wait`s have come
back with nothing before their time was over (of those that found no other thread waiting) than `notify` calls were begun.
-/

namespace Polling.C67
open Spec

section Poll
open PollP PollC

/-- `poll()`: all programs, all results of `poll()`, all errors, all timeouts; `poll()` waits for at most `i32::MAX` milliseconds. -/
theorem poll_empty_hands_timed (c : PollP.Cfg) (P : PollC.Act → Prop) (s : PollC.S) (l : List (PollC.Act × PollC.Obs))
    (h : Runs (fun s => ∃ now, s = PollC.init c now) (PollC.step c) P s l) :
    earlyBacks (some 2147483647000000) (l.filterMap PollC.handT) ≤ notifiesT (l.filterMap PollC.handT) := by
  have ht := PollC.reach_timed h
  have h1 := early_unexcused ht.fair
  have h2 := ht.pay.pay
  have h3 := notifiesL_seen (l.filterMap PollC.handL)
  rw [PollC.handL_seen] at h1 h3
  unfold LPay at h2
  unfold PollC.most at h1
  omega

/-- The first steps of `wait(Some(t))` by thread 0. -/
def pollStart (t : Duration) : List PollC.Act :=
  [.wait 0 (some t), .remaining, .deadline, .act 0 .waitLock, .act 0 .waitSwap, .act 0 .waitLoad]

/-- The last steps after `poll()` found nothing. -/
def pollEnd : List PollC.Act :=
  [.act 0 (.waitPoll fun _ _ => 0#16), .act 0 (.waitSwap2 []), .act 0 .waitUnlock, .act 0 .waitFinish]

/-- The number of early `wait`s and of notifications, and the last thing seen. -/
def pollCount (as : List PollC.Act) : Option (List Nat × Option HandT) :=
  (runLog (PollC.step C34.exCfg) (PollC.init C34.exCfg 7000) as []).map fun r =>
    ([earlyBacks (some 2147483647000000) (r.2.filterMap PollC.handT), earlyBacks none (r.2.filterMap PollC.handT), notifiesT (r.2.filterMap PollC.handT)],
      (r.2.filterMap PollC.handT).head?)

/-- Five milliseconds without an event: one nanosecond before, the `wait` is still there; then it comes back with nothing, and that is not
early.  If a signal interrupts it after two milliseconds, three are left (rounded up: the `wait` that asked for 4.5 ms takes five).  A
`notify` ends it early.  A month is cut to 24.9 days. -/
example :
    pollCount (pollStart ⟨5000000, by decide⟩ ++ .tick 4999999 :: pollEnd) = none ∧
    pollCount (pollStart ⟨5000000, by decide⟩ ++ .tick 5000000 :: pollEnd) = some ([0, 0, 0], some (.back 0)) ∧
    pollCount (pollStart ⟨4500000, by decide⟩ ++ [.tick 2000000, .act 0 (.waitPollFail .interrupted), .act 0 .waitUnlock, .act 0 .waitFinish,
      .remaining, .deadline, .act 0 .waitLock, .act 0 .waitSwap, .act 0 .waitLoad] ++ .tick 2999999 :: pollEnd) = none ∧
    pollCount (pollStart ⟨4500000, by decide⟩ ++ [.tick 2000000, .act 0 (.waitPollFail .interrupted), .act 0 .waitUnlock, .act 0 .waitFinish,
      .remaining, .deadline, .act 0 .waitLock, .act 0 .waitSwap, .act 0 .waitLoad] ++ .tick 3000000 :: pollEnd) = some ([0, 0, 0], some (.back 0)) ∧
    pollCount ([.wait 0 (some ⟨5000000, by decide⟩), .remaining, .deadline, .act 1 .notifyCas, .act 1 .notifySwap, .act 1 (.notifyWrite true), .tick 10, .act 0 .waitLock, .act 0 .waitSwap,
      .act 0 .waitPop, .act 0 .waitUnlock, .act 0 .waitFinish]) = some ([1, 1, 1], some (.back 0)) ∧
    pollCount (pollStart ⟨2592000000000000, by decide⟩ ++ .tick 2147483647000000 :: pollEnd) = some ([0, 1, 0], some (.back 0)) := by
  refine ⟨?_, ?_, ?_, ?_, ?_, ?_⟩ <;> decide +kernel

end Poll

section Kqueue
open KqM KqSpec KqC

/-- kqueue, with all timeouts, under the conditions of `kqueue_empty_hands_partial`.  Missing for the full property: the other cases, see
`kqueue_empty_hands_more`. -/
theorem kqueue_empty_hands_timed_partial (c : KqM.Cfg) (hok : c.Ok) (hkc : C06.KeepsClear c) (P : KqC.Act → Prop) (hP : ∀ a, P a → KqC.Proper a)
    (s : KqC.S) (l : List (KqC.Act × KqC.Obs)) (h : Runs (fun s => ∃ cond now, s = KqC.init c cond now) (KqC.step c) P s l) :
    earlyBacks none (l.filterMap KqC.handT) ≤ notifiesT (l.filterMap KqC.handT) := by
  have ht := KqC.reach_timed hok hkc hP h
  have h1 := early_unexcused ht.fair
  have h2 := ht.pay
  have h3 := notifiesL_seen (l.filterMap KqC.handL)
  rw [KqC.handL_seen] at h1 h3
  unfold LPay at h2
  omega

/-- The number of early `wait`s and of notifications, and the last thing seen. -/
def kqCount (c : KqM.Cfg) (as : List KqC.Act) : Option (List Nat × Option HandT) :=
  (runLog (KqC.step c) (KqC.init c (fun _ => none) 7000) as []).map fun r =>
    ([earlyBacks none (r.2.filterMap KqC.handT), notifiesT (r.2.filterMap KqC.handT)], (r.2.filterMap KqC.handT).head?)

/-- Steps of one thread. -/
def kqBy (t : Tid) (as : List KqM.Act) : List KqC.Act := as.map (.act t)

/-- 4.5 milliseconds without an event: one nanosecond before, the `wait` is still there; then it comes back with nothing, and that is not
early.  If a signal interrupts it after two milliseconds, 2.5 are left, no less and no more.  A `notify` ends it early, with a user filter
and with a pair of sockets. -/
example :
    kqCount C04.userCfg ([.wait 0 (some ⟨4500000, by decide⟩) 8, .remaining, .tick 4499999] ++ kqBy 0 [.kevent, .finish]) = none ∧
    kqCount C04.userCfg ([.wait 0 (some ⟨4500000, by decide⟩) 8, .remaining, .tick 4500000] ++ kqBy 0 [.kevent, .finish]) = some ([0, 0], some (.back 0)) ∧
    kqCount C04.userCfg ([.wait 0 (some ⟨4500000, by decide⟩) 8, .remaining, .tick 2000000, .act 0 (.kfail .interrupted), .remaining, .tick 2499999] ++
      kqBy 0 [.kevent, .finish]) = none ∧
    kqCount C04.userCfg ([.wait 0 (some ⟨4500000, by decide⟩) 8, .remaining, .tick 2000000, .act 0 (.kfail .interrupted), .remaining, .tick 2500000] ++
      kqBy 0 [.kevent, .finish]) = some ([0, 0], some (.back 0)) ∧
    kqCount C04.userCfg ([.wait 0 (some ⟨4500000, by decide⟩) 8, .remaining, .tick 10] ++ kqBy 1 [.notifyCas, .change none, .eval] ++ kqBy 0 [.kevent, .finish]) =
      some ([1, 1], some (.back 0)) ∧
    kqCount C04.pairCfg ([.wait 0 (some ⟨4500000, by decide⟩) 8, .remaining, .tick 10] ++ kqBy 1 [.notifyCas, .write false] ++
      kqBy 0 [.kevent, .read false, .read false, .src, .change none, .change none, .eval, .finish]) = some ([1, 1], some (.back 0)) := by
  refine ⟨?_, ?_, ?_, ?_, ?_, ?_⟩ <;> decide +kernel

end Kqueue

section Iocp
open IocpM IocpSpec IocpC

/-- IOCP, with all timeouts, whenever `GetQueuedCompletionStatusEx` returns, if the extensions are not used with the reserved key.  Missing
for the full property: that case, see `iocp_empty_hands_more`. -/
theorem iocp_empty_hands_timed_partial (n : Nat) (P : IocpC.Act → Prop) (hP : ∀ a, P a → IocpC.Proper a) (s : IocpC.S) (l : List (IocpC.Act × IocpC.Obs))
    (h : Runs (fun s => ∃ now, s = IocpC.init now) (IocpC.step n) P s l) :
    earlyBacks none (l.filterMap IocpC.handT) ≤ notifiesT (l.filterMap IocpC.handT) := by
  have ht := IocpC.reach_timed hP h
  have h1 := early_unexcused ht.fair
  have h2 := ht.pay.pay
  have h3 := notifiesL_seen (l.filterMap IocpC.handL)
  rw [IocpC.handL_seen] at h1 h3
  omega

/-- The number of early `wait`s and of notifications, and the last thing seen. -/
def iocpCount (as : List IocpC.Act) : Option (List Nat × Option HandT) :=
  (runLog (IocpC.step 3) (IocpC.init 7000) as []).map fun r =>
    ([earlyBacks none (r.2.filterMap IocpC.handT), notifiesT (r.2.filterMap IocpC.handT)], (r.2.filterMap IocpC.handT).head?)

/-- `wait` enters the backend, which has nothing to submit. -/
def iocpEnter : List IocpC.Act := [.remaining, .deadline, .act (.wait none)]

/-- A round of the loop of the backend until it waits in `GetQueuedCompletionStatusEx`. -/
def iocpIn : List IocpC.Act := [.act (.wait none), .act (.wait none)]

/-- `GetQueuedCompletionStatusEx` returns with nothing, and the round ends. -/
def iocpOut (expired : Bool) : List IocpC.Act := [.act .get, .act (.wait none), .act (.decide expired)]

/-- Five milliseconds without an event: `GetQueuedCompletionStatusEx` returns when it likes, and the loop goes on until no time is left;
one nanosecond earlier it cannot stop.  Then `wait` comes back with nothing, and that is not early.  A signal after two milliseconds
changes nothing.  A `notify` ends it early. -/
example :
    iocpCount (.wait (some ⟨5000000, by decide⟩) 4 :: iocpEnter ++ iocpIn ++ .tick 4999999 :: iocpOut false ++ iocpIn ++ iocpOut true) = none ∧
    iocpCount (.wait (some ⟨5000000, by decide⟩) 4 :: iocpEnter ++ iocpIn ++ .tick 5000000 :: iocpOut false ++ iocpIn ++ iocpOut true ++
      [.act (.wait none)]) = some ([0, 0], some (.back 0)) ∧
    iocpCount (.wait (some ⟨5000000, by decide⟩) 4 :: iocpEnter ++ iocpIn ++ [.tick 2000000, .act (.getFail .interrupted), .act (.wait none)] ++
      iocpEnter ++ .tick 2999999 :: iocpIn ++ iocpOut true) = none ∧
    iocpCount (.wait (some ⟨5000000, by decide⟩) 4 :: iocpEnter ++ iocpIn ++ [.tick 2000000, .act (.getFail .interrupted), .act (.wait none)] ++
      iocpEnter ++ .tick 3000000 :: iocpIn ++ iocpOut true ++ [.act (.wait none)]) = some ([0, 0], some (.back 0)) ∧
    iocpCount (.wait (some ⟨5000000, by decide⟩) 4 :: iocpEnter ++ iocpIn ++ [.tick 10, .act (.notifyCas 0), .act (.notifyPost 0 none), .act .get,
      .act (.wait none), .act (.wait none), .act (.decide false), .act (.wait none)]) = some ([1, 1], some (.back 0)) := by
  refine ⟨?_, ?_, ?_, ?_, ?_⟩ <;> decide +kernel

end Iocp

end Polling.C67
