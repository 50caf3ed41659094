import Verif.Proof.EpollRun
import Verif.Spec.Modes
import Verif.Model.Modes

/-! C17, C18 and C24 (epoll): errors of registration calls, and their lack of effects. -/

namespace Polling.C18
open EpollM Epoll Spec

/-- The outcome of the three calls in any reachable state, if the OS has no other reason to refuse (memory, limits):
`add` fails with AlreadyExists exactly if the source is registered, `modify` and `delete` fail with NotFound exactly
if it is not. -/
theorem epoll_results (c : Cfg) (hok : c.Ok) (s : S) (tr : List (Obs EventExtra)) (h : Reach c s tr) (fd : Fd)
    (ev : Event EventExtra) (mode : PollMode) (hfd : c.internal fd = false) (hb : buildable ev = true)
    (hk : ev.key ≠ NOTIFY_KEY) :
    (∃ s', step c s (.add fd ev mode none) =
      some (s', if (current tr fd).isSome then .failed .alreadyExists else .reg fd ev mode)) ∧
    (∃ s', step c s (.modify fd ev mode none) =
      some (s', if (current tr fd).isSome then .reg fd ev mode else .failed .notFound)) ∧
    (∃ s', step c s (.delete fd none) =
      some (s', if (current tr fd).isSome then .unreg fd else .failed .notFound)) := by
  have hu := (reach_kinv hok h).r.user fd hfd
  cases hc : current tr fd with
  | none =>
    rw [hc] at hu
    simp only [step, hfd, hb, hk, EpollM.add, EpollM.modify, EpollM.delete, ctlAdd, ctlMod, ctlDel, hu]
    simp
  | some cu =>
    rw [hc] at hu
    simp only [step, hfd, hb, hk, EpollM.add, EpollM.modify, EpollM.delete, ctlAdd, ctlMod, ctlDel, hu]
    simp

/-- A registration call that fails, for whatever reason, changes nothing at all: neither the poller, nor the kernel's
tables, nor the registrations of the history. -/
theorem epoll_failure_changes_nothing (c : Cfg) (s s' : S) (a : Act) (e : Err) (tr : List (Obs EventExtra))
    (hs : step c s a = some (s', .failed e)) : s' = s ∧ current (.failed e :: tr) = current tr := by
  refine ⟨?_, rfl⟩
  have hwf : ∀ s dl cap e', (waitFail s dl cap e').2 ≠ .failed e := by
    intro s dl cap e'; unfold waitFail; split <;> simp
  cases a with
  | add fd ev mode fault =>
    simp only [step] at hs
    split at hs
    · cases hs
    · split at hs
      · cases hs
      · split at hs
        · cases hs; rfl
        · rcases hm : EpollM.add c fault s.k fd ev mode with ⟨r, k⟩
          rw [hm] at hs
          rcases ctlAdd_cases hm with ⟨rfl, _, _⟩ | ⟨⟨e', rfl⟩, rfl⟩ <;> cases hs
          rfl
  | modify fd ev mode fault =>
    simp only [step] at hs
    split at hs
    · cases hs
    · split at hs
      · cases hs
      · split at hs
        · cases hs; rfl
        · rcases hm : EpollM.modify c fault s.k fd ev mode with ⟨r, k⟩
          rw [hm] at hs
          rcases ctlMod_cases hm with ⟨rfl, _, _⟩ | ⟨⟨e', rfl⟩, rfl⟩ <;> cases hs
          rfl
  | delete fd fault =>
    simp only [step] at hs
    split at hs
    · cases hs
    · rcases hm : EpollM.delete fault s.k fd with ⟨r, k⟩
      rw [hm] at hs
      rcases ctlDel_cases hm with ⟨rfl, _, _⟩ | ⟨⟨e', rfl⟩, rfl⟩ <;> cases hs
      rfl
  | clearRead =>
    simp only [step] at hs
    repeat' split at hs
    all_goals first | (cases hs; done) | (injection hs with hs; injection hs with h1 h2; cases h2)
  | _ =>
    simp only [step] at hs
    repeat' split at hs
    all_goals first | (cases hs; done) | (injection hs with hs; exact absurd (congrArg Prod.snd hs) (hwf _ _ _ _)) | (simp at hs; done)

/-- Double add, unknown modify, unknown delete. -/
example : exTrace exCfg (fun _ => 0#32) [.add 7 (Event.all 1) .level none, .add 7 (Event.all 2) .edge none,
      .modify 8 (Event.all 3) .oneshot none, .delete 8 none, .delete 7 none, .delete 7 none] =
    some [.failed .notFound, .unreg 7, .failed .notFound, .failed .notFound, .failed .alreadyExists,
      .reg 7 (Event.all 1) .level] := by decide

end Polling.C18

namespace Polling.C24
open EpollM Epoll Spec

/-- An `add` refused by the OS leaves no registration behind: the state is unchanged, and a later `add` of the same
source succeeds (if the OS then accepts it). -/
theorem epoll_failed_add (c : Cfg) (hok : c.Ok) (s s' : S) (tr : List (Obs EventExtra)) (h : Reach c s tr) (fd : Fd)
    (ev : Event EventExtra) (mode : PollMode) (e e' : Err) (hs : step c s (.add fd ev mode (some e)) = some (s', .failed e'))
    (hfree : current tr fd = none) :
    s' = s ∧ current (.failed e' :: tr) fd = none ∧
    ∀ ev2 mode2, buildable ev2 = true → ev2.key ≠ NOTIFY_KEY →
      ∃ s2, step c s' (.add fd ev2 mode2 none) = some (s2, .reg fd ev2 mode2) := by
  obtain ⟨rfl, _⟩ := C18.epoll_failure_changes_nothing c s s' _ e' tr hs
  refine ⟨rfl, hfree, ?_⟩
  intro ev2 mode2 hb hk
  have hfd : c.internal fd = false := by
    simp only [step] at hs
    split at hs
    · cases hs
    · next hi => simpa using hi
  have := (C18.epoll_results c hok s' tr h fd ev2 mode2 hfd hb hk).1
  simpa [hfree] using this

/-- The OS refuses once (say ENOSPC); the second attempt works. -/
example : exTrace exCfg (fun _ => 0#32) [.add 7 (Event.all 1) .level (some (.os 28)), .add 7 (Event.all 2) .edge none] =
    some [.reg 7 (Event.all 2) .edge, .failed (.os 28)] := by decide

end Polling.C24

namespace Polling.C17
open EpollM Epoll Spec

/-- epoll supports every mode and rejects none: an `add` of a new source, or `modify` of a registered one, that the OS
does not refuse succeeds whatever the mode, and the registration has that mode. -/
theorem epoll_rejects_exactly (c : Cfg) (hok : c.Ok) (s : S) (tr : List (Obs EventExtra)) (h : Reach c s tr) (fd : Fd)
    (ev : Event EventExtra) (mode : PollMode) (hfd : c.internal fd = false) (hb : buildable ev = true)
    (hk : ev.key ≠ NOTIFY_KEY) :
    modeWorks Epoll.supportsLevel Epoll.supportsEdge mode = true ∧
    ∃ s', step c s (if (current tr fd).isSome then .modify fd ev mode none else .add fd ev mode none) =
      some (s', .reg fd ev mode) := by
  refine ⟨by cases mode <;> rfl, ?_⟩
  obtain ⟨h1, h2, _⟩ := C18.epoll_results c hok s tr h fd ev mode hfd hb hk
  cases hc : (current tr fd).isSome with
  | true => simpa [hc] using h2
  | false => simpa [hc] using h1

end Polling.C17
