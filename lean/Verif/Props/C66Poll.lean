import Verif.Proof.PollRepoll

/-
C66 for poll(2): a `wait` that has nothing to report sleeps.

The backend calls `poll()` in a loop.  What may be a reason to call it again: the `wait` began, the last call failed (it was
interrupted), or some thread sent a byte, because it registers something or notifies.
-/

namespace Polling.C66
open PollP PollB PollFlags PollSpec

/-- How many observations of a trace are of a kind. -/
def times (f : PObs → Bool) (tr : List PObs) : Nat := (tr.filter f).length

/-- Kinds of observations: `poll()` is called; it failed; a `wait`, a registration call, a `notify` began. -/
def isPoll : PObs → Bool | .polled .. => true | _ => false
def isFail : PObs → Bool | .pollFailed _ => true | _ => false
def isWait : PObs → Bool | .waitBegin _ => true | _ => false
def isCall : PObs → Bool | .callBegin .. => true | _ => false
def isNotify : PObs → Bool | .notifyBegin _ => true | _ => false

/-- **C66, poll(2)**: whatever the OS answers and however threads interleave, `poll()` is called at most once for every `wait`, failed
`poll()`, registration call and `notify`. -/
theorem poll_asks_only_with_reason {c P s tr} (h : Reach c P s tr) :
    times isPoll tr ≤ times isWait tr + times isFail tr + times isCall tr + times isNotify tr := by
  have := reach_polledN h
  have e : ∀ f g : PObs → Bool, (∀ o, f o = g o) → tr.countP f = times g tr := by
    intro f g hfg
    unfold times
    rw [List.countP_eq_length_filter, show f = g from funext hfg]
  unfold polledN waitN failedN callN notifyN at this
  rw [e _ isPoll (by intro o; cases o <;> rfl), e _ isWait (by intro o; cases o <;> rfl), e _ isFail (by intro o; cases o <;> rfl),
    e _ isCall (by intro o; cases o <;> rfl), e _ isNotify (by intro o; cases o <;> rfl)] at this
  exact this

-- the bound is reached: one `wait`, interrupted by two registration calls and once by a signal, calls `poll()` four times
example : ∃ s tr, Reach ⟨⟨3, 4, IN⟩, .pipe, 2⟩ Any s tr ∧
    times isPoll tr = 4 ∧ times isWait tr = 1 ∧ times isFail tr = 1 ∧ times isCall tr = 2 ∧ times isNotify tr = 0 := by
  let c : Cfg := ⟨⟨3, 4, IN⟩, .pipe, 2⟩
  let os : Fd → Flags → Flags := fun fd _ => if fd = 3 then IN else 0#16
  let op : List (Nat × Act) := [(1, .callBegin (.delete 9)), (1, .callWrite true), (0, .waitPoll os), (0, .waitPopAll), (0, .waitPopAll),
    (0, .waitSwap2 []), (0, .waitSwap), (0, .waitLoad), (0, .waitPark), (1, .callLock), (1, .callPop), (1, .callApply), (1, .callDec), (1, .callCv),
    (1, .callUnlock), (0, .waitRelock), (0, .waitSwap), (0, .waitLoad)]
  let acts : List (Nat × Act) := [(0, .waitBegin false), (0, .waitLock), (0, .waitSwap), (0, .waitLoad)] ++ op ++ op ++
    [(0, .waitPollFail .interrupted), (0, .waitUnlock), (0, .waitFinish), (0, .waitLock), (0, .waitSwap), (0, .waitLoad)]
  have h1 : ((runActs c (init c) acts).map fun r => (times isPoll r.2, times isWait r.2, times isFail r.2, times isCall r.2, times isNotify r.2)) =
      some (4, 1, 1, 2, 0) := by decide +kernel
  obtain ⟨⟨s, tr⟩, h2, h3⟩ := Option.map_eq_some_iff.1 h1
  refine ⟨s, tr, by simpa using reach_run (P := Any) .init acts s tr (fun _ _ => trivial) h2, ?_⟩
  simpa using h3

end Polling.C66
