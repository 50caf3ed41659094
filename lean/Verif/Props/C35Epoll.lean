import Verif.Proof.EpollRun

/-! C35 (epoll): the wake-up channel stays bounded. -/

namespace Polling.C35
open EpollM Epoll Spec

/-- 1 if the flag allows one more write. -/
def mayWrite (s : S) : Nat := if s.notified then 0 else 1

def afterClear : Phase → Bool
  | .cleared .. | .rearmed .. => true
  | _ => false

/-- The counting invariant. -/
def B (c : Cfg) (s : S) : Prop :=
  s.inflight ≤ c.threads ∧
  s.k.count + s.inflight + mayWrite s + (if afterClear s.phase then 1 else 0) ≤ c.threads + 2

theorem B_kern {c : Cfg} {s : S} (h : B c s) {k : Kern} (hk : k.count = s.k.count) : B c { s with k } := by
  unfold B mayWrite at *; simp only [hk]; exact h

theorem B_waitFail {c : Cfg} {s s' : S} {dl cap e o} (h : B c s) (heq : waitFail s dl cap e = (s', o)) : B c s' := by
  unfold waitFail at heq
  unfold B mayWrite at *
  split at heq <;> cases heq <;> simp only [afterClear] <;> exact ⟨h.1, by simp; omega⟩

theorem B_step {c : Cfg} {s s' : S} {a : Act} {o : Obs EventExtra} (h : B c s) (hs : step c s a = some (s', o)) : B c s' := by
  have mod : ∀ {fault x ev mode r k}, EpollM.modify c fault s.k x ev mode = (r, k) → k.count = s.k.count := by
    intro fault x ev mode r k h
    rcases ctlMod_cases h with ⟨_, _, rfl⟩ | ⟨_, rfl⟩
    · rw [link_eq]; rfl
    · rfl
  cases a with
  | add fd ev mode fault =>
    simp only [step] at hs
    split at hs
    · cases hs
    · split at hs
      · cases hs
      · split at hs
        · cases hs; exact h
        · rcases hm : EpollM.add c fault s.k fd ev mode with ⟨r, k⟩
          have hk : k.count = s.k.count := by
            rcases ctlAdd_cases hm with ⟨_, _, rfl⟩ | ⟨_, rfl⟩
            · rw [link_eq]; rfl
            · rfl
          rw [hm] at hs
          cases r <;> (cases hs; exact B_kern h hk)
  | modify fd ev mode fault =>
    simp only [step] at hs
    split at hs
    · cases hs
    · split at hs
      · cases hs
      · split at hs
        · cases hs; exact h
        · rcases hm : EpollM.modify c fault s.k fd ev mode with ⟨r, k⟩
          rw [hm] at hs
          cases r <;> (cases hs; exact B_kern h (mod hm))
  | delete fd fault =>
    simp only [step] at hs
    split at hs
    · cases hs
    · rcases hm : EpollM.delete fault s.k fd with ⟨r, k⟩
      have hk : k.count = s.k.count := by
        rcases ctlDel_cases hm with ⟨_, _, rfl⟩ | ⟨_, rfl⟩ <;> rfl
      rw [hm] at hs
      cases r <;> (cases hs; exact B_kern h hk)
  | notifyCas =>
    simp only [step] at hs
    split at hs
    · cases hs; exact h
    · next hn =>
      split at hs
      · next hlt =>
        cases hs
        unfold B mayWrite at *
        simp only [hn, if_true, Bool.false_eq_true, if_false] at h ⊢
        omega
      · cases hs
  | notifyWrite =>
    simp only [step] at hs
    split at hs
    · cases hs
      unfold B mayWrite at *
      rw [link_eq]
      simp only
      omega
    · cases hs
  | waitBegin timeout cap =>
    simp only [step] at hs
    split at hs
    · next hph =>
      split at hs
      · cases hs
      · cases hs
        unfold B mayWrite at *
        rw [hph] at h; exact h
    · cases hs
  | waitBusy =>
    simp only [step] at hs
    repeat' split at hs
    all_goals first | (cases hs; done) | (cases hs; exact h)
  | compute =>
    simp only [step] at hs
    split at hs
    · next hph =>
      cases hs
      unfold B mayWrite at *
      rw [hph] at h; exact h
    · cases hs
  | settime fault =>
    simp only [step] at hs
    split at hs
    · next hph =>
      have h' := h
      unfold B mayWrite at h'
      rw [hph] at h'
      split at hs
      · split at hs
        · exact B_waitFail h (Option.some.inj hs)
        · cases hs; exact h'
      · cases hs; exact h'
    · cases hs
  | armTimer fault =>
    simp only [step] at hs
    split at hs
    · next hph =>
      have h' := h
      unfold B mayWrite at h'
      rw [hph] at h'
      split at hs
      · rcases hm : EpollM.modify c fault s.k c.timerFd (Event.onlyReadable NOTIFY_KEY) .oneshot with ⟨r, k⟩
        rw [hm] at hs
        cases r with
        | ok => cases hs; unfold B mayWrite; simp only [mod hm]; exact h'
        | err e => exact B_waitFail (B_kern h (mod hm)) (Option.some.inj hs)
      · cases hs; exact h'
    · cases hs
  | epollReturn =>
    simp only [step] at hs
    split at hs
    · next hph =>
      have h' := h
      unfold B mayWrite at h'
      rw [hph] at h'
      split at hs
      · cases hs; exact h'
      · cases hs
    · cases hs
  | epollFail e =>
    simp only [step] at hs
    split at hs
    · exact B_waitFail h (Option.some.inj hs)
    · cases hs
  | clearRead =>
    simp only [step] at hs
    split at hs
    · next hph =>
      have h' := h
      unfold B mayWrite at h'
      rw [hph] at h'
      have hle : (if s.notified = true then 0 else 1) ≤ 1 := by split <;> omega
      split at hs
      · injection hs with hs; injection hs with h1 h2; subst h1 h2
        unfold B mayWrite
        simp only [hph]
        refine ⟨h'.1, ?_⟩
        have := h'.2
        omega
      · injection hs with hs; injection hs with h1 h2; subst h1 h2
        unfold B mayWrite
        simp only [afterClear, if_true]
        exact ⟨h'.1, by omega⟩
    · cases hs
  | rearm fault =>
    simp only [step] at hs
    split at hs
    · next hph =>
      have h' := h
      unfold B mayWrite at h'
      rw [hph] at h'
      rcases hm : EpollM.modify c fault s.k c.notifFd (Event.onlyReadable NOTIFY_KEY) .oneshot with ⟨r, k⟩
      rw [hm] at hs
      cases r with
      | ok => cases hs; unfold B mayWrite; simp only [mod hm]; exact h'
      | err e => exact B_waitFail (B_kern h (mod hm)) (Option.some.inj hs)
    · cases hs
  | finish =>
    simp only [step] at hs
    split at hs
    · next hph =>
      cases hs
      unfold B mayWrite at *
      rw [hph] at h
      simp only [afterClear, if_true, Bool.false_eq_true, if_false] at h ⊢
      omega
    · cases hs
  | setReady fd flags key =>
    simp only [step] at hs
    repeat' split at hs
    all_goals first | (cases hs; done) | (cases hs; exact B_kern h (by rw [link_eq]))
  | tick dt =>
    simp only [step] at hs
    split at hs
    · cases hs; exact B_kern h rfl
    · split at hs
      · cases hs
        refine B_kern h ?_
        split
        · rw [link_eq]
        · rfl
      · cases hs; exact B_kern h rfl

/-- In every reachable state the value of the eventfd (the number of bytes in the pipe) is at most the number of
threads that may call `notify`, plus 2 - however many notifications are made.  And when a thread is about to write, it is
below that: a pipe that holds `threads + 2` bytes is never full, the write does not block. -/
theorem epoll_channel_bounded (c : Cfg) (hok : c.Ok) (s : S) (tr : List (Obs EventExtra)) (h : Reach c s tr) :
    s.k.count ≤ c.threads + 2 ∧ (s.inflight > 0 → s.k.count < c.threads + 2) := by
  have hB : B c s := by
    induction h with
    | init user =>
      have hk := init_kinv c hok user
      refine ⟨Nat.zero_le _, ?_⟩
      have : (init c user).k.count = 0 := by
        unfold init
        cases ht : c.hasTimer with
        | false =>
          simp only [EpollM.add, ctlAdd, Bool.false_eq_true, if_false]
          rw [link_eq]; simp [setItem]
        | true =>
          have hne : c.notifFd ≠ c.timerFd := fun h => hok ht h.symm
          simp only [EpollM.add, ctlAdd, if_true, link_items, setItem_items, hne, if_false]
          rw [link_eq]; simp only [setItem]
          rw [link_eq]
      rw [this]
      simp [init, mayWrite, afterClear]
    | step _ hs ih => exact B_step ih hs
  unfold B at hB
  omega

/-- The bound `threads + 1` is reached with one thread: a write after the clearing of a `wait` in progress, one
after it. -/
example : (runActs ⟨true, 3, 4, false, 1⟩ (init ⟨true, 3, 4, false, 1⟩ (fun _ => 0#32))
    [.waitBegin (some ⟨0, by decide⟩) 5, .compute, .settime none, .armTimer none, .epollReturn, .clearRead, .notifyCas, .notifyWrite,
     .rearm none, .finish, .notifyCas, .notifyWrite]).map (fun r => r.1.k.count) = some 2 := by decide

end Polling.C35
