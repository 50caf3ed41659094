import Verif.Proof.LinKq
import Verif.Proof.LinPoll
import Verif.Proof.LinIocp
import Verif.Proof.KqInv
import Verif.Proof.KqRun
import Verif.Props.KqNotify
import Verif.Props.PollDelivery

/-! C60: the results of registration calls that overlap in time are those of some order of the calls. -/

namespace Polling.C60
open Lin

/-! poll -/

section
open PollP PollSpec

/-- poll: in every execution, whatever the threads do, the results of `add`, `modify` and `delete` are those of an order of the calls
that agrees with real time, and the sources this order leaves are those of the poller (C15: the map that the applied calls give). -/
theorem poll_linearizable {c : PollP.Cfg} {P s tr} (h : PollP.Reach c P s tr) :
    ∃ st, Atomic {} st (ofPObs tr) ∧
      ∀ fd, st.present fd = (mapAfter applyAsCoded c.n.spec (fun _ => none) (steps tr) fd).isSome := by
  obtain ⟨st, ha, hr⟩ := PollP.reach_lin (ru := {}) h
  exact ⟨st, ha, hr.present⟩

/-- poll: when every call has returned and no call for `fd` failed for another reason, the `add`s of `fd` that succeeded are as many as
the `delete`s that succeeded, and one more if `fd` is registered: of several `add`s at the same time exactly one wins. -/
theorem poll_one_wins {c : PollP.Cfg} {P s tr} (h : PollP.Reach c P s tr) (hq : Quiescent (ofPObs tr)) (fd : Fd)
    (hf : ∀ k, results k fd .failed (ofPObs tr) = 0) :
    results .add fd .ok (ofPObs tr) = results .delete fd .ok (ofPObs tr) +
      if (mapAfter applyAsCoded c.n.spec (fun _ => none) (steps tr) fd).isSome then 1 else 0 := by
  obtain ⟨st, ha, hp⟩ := poll_linearizable h
  have hb := quiet_balance rfl ha hq fd hf
  rw [no_missing rfl ha, Nat.add_zero] at hb
  rw [hb, hp]
  cases (mapAfter applyAsCoded c.n.spec (fun _ => none) (steps tr) fd).isSome <;> rfl

/-- Two threads add the same source; the second comes first. -/
def interleaved : List (Nat × PollP.Act) :=
  [(0, .callBegin (.add 7 (Event.onlyReadable 5) .level)), (1, .callBegin (.add 7 (Event.onlyReadable 6) .level)), (1, .callWrite true),
   (1, .callLock), (0, .callWrite true), (1, .callPop), (1, .callApply), (1, .callDec), (1, .callUnlock),
   (0, .callLock), (0, .callPop), (0, .callApply), (0, .callDec), (0, .callCv), (0, .callUnlock)]
def twoCfg : PollP.Cfg := ⟨⟨3, 4, PollFlags.IN⟩, .pipe, 2⟩

theorem interleaved_run : ∃ s tr, PollP.Reach twoCfg PollP.Any s tr ∧
    ofPObs tr = [.ret 0 .dup, .ret 1 .ok, .begin 1 .add 7, .begin 0 .add 7] := by
  obtain ⟨s, tr, h, hp⟩ := PollEx.run_of (c := twoCfg) (acts := interleaved)
    (p := fun tr => ofPObs tr == [.ret 0 .dup, .ret 1 .ok, .begin 1 .add 7, .begin 0 .add 7]) (by decide +kernel)
  exact ⟨s, tr, h, eq_of_beq hp⟩

/-- The hypotheses of `poll_one_wins` hold of this run, and there one `add` has won. -/
example : ∃ s tr, PollP.Reach twoCfg PollP.Any s tr ∧ Quiescent (ofPObs tr) ∧ (∀ k, results k 7 .failed (ofPObs tr) = 0) ∧
    results .add 7 .ok (ofPObs tr) = 1 := by
  obtain ⟨s, tr, h, e⟩ := interleaved_run
  refine ⟨s, tr, h, ?_⟩
  rw [e]
  refine ⟨fun t => ?_, fun k => ?_, by decide⟩
  · simp only [Lin.calling]; split <;> (try split) <;> rfl
  · cases k <;> decide

/-- A history no order explains: both `add`s succeed. -/
example : ¬ Linearizable {} ([.ret 0 .ok, .ret 1 .ok, .begin 1 .add 7, .begin 0 .add 7] : List (Lin.Obs Fd)) := by
  rintro ⟨st, h⟩
  have hb := quiet_balance rfl h (fun t => by simp only [Lin.calling]; split <;> (try split) <;> rfl) 7 (fun k => by cases k <;> decide)
  have e1 : results .add 7 .ok ([.ret 0 .ok, .ret 1 .ok, .begin 1 .add 7, .begin 0 .add 7] : List (Lin.Obs Fd)) = 2 := by decide
  have e2 : results .delete 7 .ok ([.ret 0 .ok, .ret 1 .ok, .begin 1 .add 7, .begin 0 .add 7] : List (Lin.Obs Fd)) = 0 := by decide
  rw [e1, e2] at hb
  have := Bool.toNat_lt (st.present 7)
  omega

end

/-! kqueue -/

section
open KqM KqSpec Kqueue

/-- kqueue, the full claim without the rule `addMissing`, which is false (`kqueue_add_not_linearizable`): in every execution in which
`kevent` itself does not fail with `NotFound` or `AlreadyExists`, the results of the registration calls (also of the filters of
os/kqueue.rs) are those of an order of the calls that agrees with real time - except that an `add` may say that the source is missing
although it entered it, when another call has removed it since.  The sources this order leaves are those of the poller. -/
theorem kqueue_linearizable_partial {c : KqM.Cfg} {s tr} (h : KqM.Reach c KqM.OwnErrors s tr) :
    ∃ st, Atomic { addMissing := true } st (ofKObs tr) ∧
      ∀ x, (c.user = true ∨ x ≠ .fd c.notifFd) → st.present x = KqSpec.registered tr x := by
  obtain ⟨st, ha, hr⟩ := KqM.reach_lin (ru := { addMissing := true }) rfl h
  refine ⟨st, ha, fun x hx => (hr.present x hx).trans ((reach_srcs h).user x ?_)⟩
  unfold Cfg.users
  cases hu : c.user
  · rw [hu] at hx
    simpa using hx
  · rfl

/-- kqueue: when every call has returned and no call for `x` failed for another reason, the `add`s that entered the source are as many
as the `delete`s that succeeded, and one more if `x` is registered. -/
theorem kqueue_one_wins_partial {c : KqM.Cfg} {s tr} (h : KqM.Reach c KqM.OwnErrors s tr) (hq : Quiescent (ofKObs tr)) (x : Source)
    (hx : c.user = true ∨ x ≠ .fd c.notifFd) (hf : ∀ k, results k x .failed (ofKObs tr) = 0) :
    results .add x .ok (ofKObs tr) + results .add x .missing (ofKObs tr) = results .delete x .ok (ofKObs tr) +
      if KqSpec.registered tr x then 1 else 0 := by
  obtain ⟨st, ha, hp⟩ := kqueue_linearizable_partial h
  rw [quiet_balance rfl ha hq x hf, hp x hx]
  cases KqSpec.registered tr x <;> rfl

theorem own_of {s : KqM.S} {t : Tid} {a : KqM.Act} (h : noFault a = true) : KqM.OwnErrors s t a := by
  cases a <;> first | trivial | cases h

/-- The run exists, its OS calls do not fail, and its observations satisfy `p`. -/
theorem kq_run {c : KqM.Cfg} {cond acts} {p : List KObs → Bool}
    (h : ((runActs c (KqM.init c cond) acts).map fun r => p r.2) = some true) (hf : ∀ x ∈ acts, noFault x.2 = true) :
    ∃ s tr, KqM.Reach c KqM.OwnErrors s tr ∧ p tr = true := by
  obtain ⟨⟨s, tr⟩, h2, h3⟩ := Option.map_eq_some_iff.1 h
  refine ⟨s, tr, ?_, h3⟩
  have := reach_runP (P := KqM.OwnErrors) (fun _ _ _ => own_of) (.init cond) acts hf s tr h2
  simpa using this

/-- Thread 0 adds; thread 1 deletes between the two looks of thread 0 at the set of sources. -/
def raced : List (Tid × KqM.Act) := [(0, .call (.add 7 (Event.onlyReadable 5) .level)), (0, .src)] ++
  by_ 1 [.call (.delete 7), .src, .change none, .change none, .eval, .src, .eval] ++ [(0, .src)]

/-- The run of `raced`; also the hypotheses of `kqueue_one_wins_partial` hold of it. -/
theorem raced_run : ∃ s tr, KqM.Reach C04.userCfg KqM.OwnErrors s tr ∧
    ofKObs tr = [.ret 0 .missing, .ret 1 .ok, .begin 1 .delete (.fd 7), .begin 0 .add (.fd 7)] := by
  obtain ⟨s, tr, h, hp⟩ := kq_run (c := C04.userCfg) (cond := fun _ => none) (acts := raced)
    (p := fun tr => ofKObs tr == [.ret 0 .missing, .ret 1 .ok, .begin 1 .delete (.fd 7), .begin 0 .add (.fd 7)])
    (by decide +kernel) (by decide)
  exact ⟨s, tr, h, eq_of_beq hp⟩

example : ∃ s tr, KqM.Reach C04.userCfg KqM.OwnErrors s tr ∧ Quiescent (ofKObs tr) ∧
    (∀ k, results k (.fd 7) .failed (ofKObs tr) = 0) ∧ results .add (.fd 7) .missing (ofKObs tr) = 1 := by
  obtain ⟨s, tr, h, e⟩ := raced_run
  refine ⟨s, tr, h, ?_⟩
  rw [e]
  refine ⟨fun t => ?_, fun k => ?_, by decide⟩
  · simp only [Lin.calling]; split <;> (try split) <;> rfl
  · cases k <;> decide

/-- kqueue: `add` of a source returns `NotFound`, which is no result of an `add` in any order of the calls: the call enters the source,
a `delete` that overlaps removes it, and then `add` does not find what it has entered (kqueue.rs:87-92, 109). -/
theorem kqueue_add_not_linearizable : ∃ (c : KqM.Cfg) (s : KqM.S) (tr : List KObs), KqM.Reach c KqM.OwnErrors s tr ∧
    ∀ ru : Rules, ru.addMissing = false → ¬ Linearizable ru (ofKObs tr) := by
  obtain ⟨s, tr, h, e⟩ := raced_run
  refine ⟨_, s, tr, h, fun ru hru hl => ?_⟩
  rw [e] at hl
  obtain ⟨k, x, b, a, n, hc, hal⟩ := lin_allowed hl
  cases hc
  rw [Allowed, hru] at hal
  cases hal.1

/-- Thread 0 modifies; thread 1 deletes between the look of thread 0 at the set of sources and its changes.  Then thread 0 waits. -/
def outlives : List (Tid × KqM.Act) := by_ 0 [.call (.add 7 (Event.onlyReadable 5) .level), .src, .src, .change none, .change none, .eval,
    .call (.modify 7 (Event.onlyReadable 5) .level), .src] ++
  by_ 1 [.call (.delete 7), .src, .change none, .change none, .eval, .src, .eval] ++
  by_ 0 [.change none, .change none, .eval, .wait false 4, .kevent, .finish]

/-- kqueue: what is linearizable are the results and the set of sources, not what is armed: when a `delete` comes between the two parts
of a `modify`, both succeed and the source is not registered any more, but its filter is armed and a later `wait` delivers its event. -/
theorem kqueue_modify_outlives_delete : ∃ (c : KqM.Cfg) (s : KqM.S) (tr : List KObs), KqM.Reach c KqM.OwnErrors s tr ∧
    Linearizable { addMissing := true } (ofKObs tr) ∧ KqSpec.registered tr (.fd 7) = false ∧
    ∃ later, tr = .waitOk 0 1 [⟨5, true, false, ⟨⟩⟩] :: .deliver 0 [{ filter := .read 7, flags := {}, udata := 5#64 }] :: .waitBegin 0 ::
      .ret 0 (.modify 7 (Event.onlyReadable 5) .level) (.res .ok) :: later ∧ .ret 1 (.delete 7) (.res .ok) ∈ later := by
  obtain ⟨s, tr, h, hp⟩ := kq_run (c := C04.userCfg) (cond := fun f => if f = .read 7 then some false else none) (acts := outlives)
    (p := fun tr => !KqSpec.registered tr (.fd 7) &&
      tr.take 4 == [.waitOk 0 1 [⟨5, true, false, ⟨⟩⟩], .deliver 0 [{ filter := .read 7, flags := {}, udata := 5#64 }], .waitBegin 0,
        .ret 0 (.modify 7 (Event.onlyReadable 5) .level) (.res .ok)] && (tr.drop 4).contains (.ret 1 (.delete 7) (.res .ok)))
    (by decide +kernel) (by decide)
  simp only [Bool.and_eq_true, Bool.not_eq_true', beq_iff_eq, List.contains_iff_mem] at hp
  obtain ⟨⟨h1, h2⟩, h3⟩ := hp
  obtain ⟨st, ha, _⟩ := kqueue_linearizable_partial h
  refine ⟨_, s, tr, h, ⟨st, ha⟩, h1, tr.drop 4, ?_, h3⟩
  have e := List.take_append_drop 4 tr
  rw [h2] at e
  exact e.symm

end

/-! IOCP -/

section
open IocpM IocpSpec Iocp

/-- IOCP, the full claim without the rule `deleteAny`, which is false (`iocp_delete_not_strict`): in every execution in which the OS does
not itself fail with `NotFound` or `AlreadyExists`, the results of the registration calls, for sockets and waitable handles, are those of
an order of the calls that agrees with real time - except that `delete` succeeds also when the source is not registered.  The sources
this order leaves are those of the poller. -/
theorem iocp_linearizable_partial {n s tr} (h : IocpM.Reach n IocpM.OwnErrors s tr) :
    ∃ st, Atomic { deleteAny := true } st (ofIObs tr) ∧ ∀ x, st.present x = (IocpSpec.registered tr x.1 x.2).isSome := by
  obtain ⟨st, ha, hr⟩ := IocpM.reach_lin (ru := { deleteAny := true }) rfl h
  exact ⟨st, ha, fun x => (hr.present x).trans (by rw [(reach_ti h).tab])⟩

/-- Two threads add the same socket, and a third deletes it; the steps alternate. -/
def alternating : List IocpM.Act :=
  [.call 0 (.add true 7 (Event.onlyReadable 5) .level), .call 1 (.add true 7 (Event.onlyReadable 6) .level), .go 0 none, .go 1 none,
   .go 1 none, .call 2 (.delete true 7), .go 0 none, .go 1 none, .go 2 none, .go 2 none, .go 1 none, .go 1 none]

theorem alternating_run : ∃ s tr, IocpM.Reach 3 IocpM.OwnErrors s tr ∧
    ofIObs tr = [.ret 1 .ok, .ret 2 .ok, .ret 0 .dup, .begin 2 .delete (true, 7), .begin 1 .add (true, 7), .begin 0 .add (true, 7)] := by
  have hr : ((runActs 3 IocpM.init alternating).map fun r => ofIObs r.2) =
    some [.ret 1 .ok, .ret 2 .ok, .ret 0 .dup, .begin 2 .delete (true, 7), .begin 1 .add (true, 7), .begin 0 .add (true, 7)] := by
    decide +kernel
  rw [Option.map_eq_some_iff] at hr
  obtain ⟨⟨s, tr⟩, hr, he⟩ := hr
  have hreach := run_reach (P := IocpM.OwnErrors) .init (fun s => by unfold alternating; simp [IocpM.OwnErrors]) hr
  rw [List.append_nil] at hreach
  exact ⟨s, tr, hreach, he⟩

/-- IOCP: when every call has returned and no call for `x` failed for another reason, no more `add`s have succeeded than `delete`s,
and one more if `x` is registered. -/
theorem iocp_one_wins_partial {n s tr} (h : IocpM.Reach n IocpM.OwnErrors s tr) (hq : Quiescent (ofIObs tr)) (x : Bool × Fd)
    (hf : ∀ k, results k x .failed (ofIObs tr) = 0) :
    results .add x .ok (ofIObs tr) ≤ results .delete x .ok (ofIObs tr) + if (IocpSpec.registered tr x.1 x.2).isSome then 1 else 0 := by
  obtain ⟨st, ha, hp⟩ := iocp_linearizable_partial h
  have hb := quiet_bound ha hq x hf
  rw [no_missing rfl ha, Nat.add_zero, hp] at hb
  refine Nat.le_trans hb (Nat.le_of_eq ?_)
  cases (IocpSpec.registered tr x.1 x.2).isSome <;> rfl

example : ∃ s tr, IocpM.Reach 3 IocpM.OwnErrors s tr ∧ Quiescent (ofIObs tr) ∧ (∀ k, results k (true, 7) .failed (ofIObs tr) = 0) ∧
    results .add (true, 7) .ok (ofIObs tr) = 1 ∧ results .delete (true, 7) .ok (ofIObs tr) = 1 := by
  obtain ⟨s, tr, h, e⟩ := alternating_run
  refine ⟨s, tr, h, ?_⟩
  rw [e]
  refine ⟨fun t => ?_, fun k => ?_, by decide, by decide⟩
  · simp only [Lin.calling]; repeat' split
    all_goals rfl
  · cases k <;> decide

/-- IOCP: `delete` of a source that was never registered succeeds, which no order of the calls explains. -/
theorem iocp_delete_not_strict : ∃ (n : Nat) (s : IocpM.S) (tr : List IObs), IocpM.Reach n IocpM.OwnErrors s tr ∧
    ∀ ru : Rules, ru.deleteAny = false → ¬ Linearizable ru (ofIObs tr) := by
  have hr : ((runActs 2 IocpM.init [.call 0 (.delete true 7), .go 0 none]).map fun r => ofIObs r.2) =
    some [.ret 0 .ok, .begin 0 .delete (true, 7)] := by decide +kernel
  rw [Option.map_eq_some_iff] at hr
  obtain ⟨⟨s, tr⟩, hr, he⟩ := hr
  have hreach := run_reach (P := IocpM.OwnErrors) .init (by intro s a ha; simp at ha; rcases ha with rfl | rfl <;> trivial) hr
  rw [List.append_nil] at hreach
  refine ⟨2, s, tr, hreach, fun ru hru hl => ?_⟩
  dsimp only at he
  rw [he] at hl
  obtain ⟨st, h⟩ := hl
  have hb := quiet_balance hru h (fun t => by simp only [Lin.calling]; split <;> (try split) <;> rfl) (true, 7) (fun k => by cases k <;> decide)
  have e1 : results .add (true, 7) .ok ([.ret 0 .ok, .begin 0 .delete (true, 7)] : List (Lin.Obs (Bool × Fd))) = 0 := by decide
  have e2 : results .add (true, 7) .missing ([.ret 0 .ok, .begin 0 .delete (true, 7)] : List (Lin.Obs (Bool × Fd))) = 0 := by decide
  have e3 : results .delete (true, 7) .ok ([.ret 0 .ok, .begin 0 .delete (true, 7)] : List (Lin.Obs (Bool × Fd))) = 1 := by decide
  rw [e1, e2, e3] at hb
  omega

end
end Polling.C60
