import Verif.Proof.WaitFree
import Verif.Proof.PollSync
import Verif.Proof.KqNext
import Verif.Proof.IocpWait
import Verif.Proof.IocpNotify
import Verif.Model.PollBlocking
import Verif.Props.C34Poll
import Verif.Props.KqNotify
import Verif.Props.C35Epoll
import Verif.Model.PortM
import Verif.Props.IocpDelivery

/-! C69: `notify` never waits for another thread. -/

namespace Polling.C69
open Spec

section Poll
open PollP PollSpec

/-- `notify` returned. -/
def pollReturned (t : Tid) (o : PObs) : Prop := o = .notifiedAtOnce t ∨ o = .notified t ∨ o = .notifyErr t

/-- How many steps `notify` has left. -/
def pollLeft : Pc → Nat
  | .nSwap => 3
  | .nWrite => 2
  | .nCv => 1
  | _ => 0

/-- The write succeeds. -/
def pollFine : Tid × Act → Bool
  | (_, .notifyWrite false) => false
  | _ => true

theorem poll_own {c s s' t a o} (hn : Next c s t a s' o) (hl : pollLeft (s.pc t) > 0) :
    pollReturned t o ∨ (pollLeft (s'.pc t) > 0 ∧ pollLeft (s'.pc t) + 1 ≤ pollLeft (s.pc t)) := by
  cases hn <;> simp_all [pollLeft, pollReturned, PollP.upd]

theorem poll_free {c : Cfg} {next : S → Tid × Act → Option (S × PObs)} (hnext : ∀ s x r, next s x = some r → step c s x.1 x.2 = some r)
    (hfree : ∀ s t a, a = .notifyCas ∨ a = .notifySwap ∨ a = .notifyWrite true ∨ a = .notifyCv → next s (t, a) = step c s t a)
    (s : S) (t : Tid) (ht : t < c.threads) (hout : s.pc t = .out) :
    WaitFree next (t, .notifyCas) (fun x => x.1 == t) pollFine (pollReturned t) 3 s := by
  refine waitFree_of (fun s => pollLeft (s.pc t) > 0) (fun s => pollLeft (s.pc t)) ?_ ?_ ?_ ?_
  · rw [hfree _ _ _ (.inl rfl)]
    unfold step; rw [if_pos ht]; simp only [hout]
    split <;> rfl
  · intro s1 o h
    have h := hnext _ _ _ h
    unfold step at h; rw [if_pos ht] at h; simp only [hout] at h
    split at h <;> cases h
    · exact .inl (.inl rfl)
    · right
      simp [PollP.upd, pollLeft]
  · intro s a s' o hi h
    have hn := (step_next (hnext _ _ _ h)).2
    obtain ⟨u, a⟩ := a
    dsimp only at hn ⊢
    by_cases e : u = t
    · subst e
      rcases poll_own hn hi with h | ⟨h1, h2⟩
      · exact .inl h
      · exact .inr ⟨h1, by simpa using h2⟩
    · right
      have hb : (u == t) = false := by simpa using e
      rcases next_other hn (u := t) (fun h => e h.symm) with h1 | ⟨b, h1, _⟩
      · rw [h1, hb]; exact ⟨hi, Nat.le_refl _⟩
      · rw [h1] at hi; cases hi
  · intro s hi
    refine ⟨hi, ?_⟩
    cases hp : s.pc t with
    | nSwap =>
      refine ⟨(t, .notifySwap), by simp, rfl, ?_⟩
      rw [hfree _ _ _ (.inr (.inl rfl))]
      unfold step; rw [if_pos ht]; simp only [hp]; split <;> rfl
    | nWrite =>
      refine ⟨(t, .notifyWrite true), by simp, rfl, ?_⟩
      rw [hfree _ _ _ (.inr (.inr (.inl rfl)))]
      unfold step; rw [if_pos ht]; simp only [hp]; rfl
    | nCv =>
      refine ⟨(t, .notifyCv), by simp, rfl, ?_⟩
      rw [hfree _ _ _ (.inr (.inr (.inr rfl)))]
      unfold step; rw [if_pos ht]; simp only [hp]; rfl
    | _ => rw [hp] at hi; cases hi

/-- The `poll(2)` poller, in every state, whatever locks other threads hold: `notify` needs at most three steps after the first. -/
theorem poll_notify_never_waits (c : Cfg) (s : S) (t : Tid) (ht : t < c.threads) (hout : s.pc t = .out) :
    WaitFree (fun s x => step c s x.1 x.2) (t, .notifyCas) (fun x => x.1 == t) pollFine (pollReturned t) 3 s :=
  poll_free (fun _ _ _ h => h) (fun _ _ _ _ => rfl) s t ht hout

/-- Also where the notifications are read with blocking reads (Vita and HermitOS), though other calls hang there. -/
theorem poll_blocking_notify_never_waits (c : Cfg) (s : S) (t : Tid) (ht : t < c.threads) (hout : s.pc t = .out) :
    WaitFree (fun s x => PollBlk.stepV c s x.1 x.2) (t, .notifyCas) (fun x => x.1 == t) pollFine (pollReturned t) 3 s := by
  refine poll_free (c := c) ?_ ?_ s t ht hout
  · intro s x r h
    unfold PollBlk.stepV at h
    split at h
    · cases h
    · exact h
  · rintro s t a (rfl | rfl | rfl | rfl) <;> rfl

def pollEx : Cfg := { C34.exCfg with threads := 3 }

/-- Thread 0 is in `poll()` and holds the table, thread 1 is in `add` and waits for the table; thread 2 calls `notify`, which returns. -/
example : ((runLog (fun s x => step pollEx s x.1 x.2) (init pollEx)
      [(0, .waitBegin false), (0, .waitLock), (0, .waitSwap), (0, .waitLoad), (1, .callBegin (.add 7 C34.exEv .oneshot)), (1, .callWrite true),
       (2, .notifyCas)] []).map fun r =>
    (r.1.mtx, (step pollEx r.1 1 .callLock).isSome,
     (runLog (fun s x => step pollEx s x.1 x.2) r.1 [(2, .notifySwap), (2, .notifyCv)] []).isSome,
     (runLog (fun s x => step pollEx s x.1 x.2) r.1 [(2, .notifySwap), (2, .notifyWrite true), (2, .notifyCv)] []).map
       fun q => (q.1.chan, match q.2 with | (_, .notified t) :: _ => t == 2 | _ => false))) =
    some (some 0, false, false, some (2, true)) := by decide +kernel

end Poll

section Kqueue
open KqM KqSpec

/-- `notify` returned. -/
def kqReturned (t : Tid) (o : KObs) : Prop := o = .notifySeen t ∨ o = .notified t

/-- How many steps `notify` has left. -/
def kqLeft : Pc → Nat
  | .submit .notify todo _ => todo.length + 1
  | .nWrite => 1
  | _ => 0

/-- The system's steps are not those of the thread. -/
def kqOwn (t : Tid) : Tid × Act → Bool
  | (_, .cond _ _) => false
  | (u, _) => u == t

/-- No call fails. -/
def kqFine : Tid × Act → Bool
  | (_, .change fault) => fault.isNone
  | (_, .kfail _) | (_, .write true) => false
  | _ => true

theorem kq_own {c s s' t a o} (hn : Next c s t a s' o) (hl : kqLeft (s.pc t) > 0) :
    kqReturned t o ∨ (kqLeft (s'.pc t) > 0 ∧ kqLeft (s'.pc t) + (if kqOwn t (t, a) then 1 else 0) ≤ kqLeft (s.pc t)) := by
  have no : ∀ {p}, s.pc t = p → kqLeft p = 0 → False := by intro p h1 h2; rw [h1, h2] at hl; cases hl
  cases hn with
  | reject hp | panic0 hp | dup hp | inserted hp | panic hp | has hp | removed hp | ended hp | wMissing hp | wHas hp | kevRetry hp | kevErr hp
  | casSeen hp | casUser hp | casPair hp | waitBusy hp | waitBegin hp | kevent hp | read hp | readEnd hp | finish hp => exact (no hp rfl).elim
  | begin hp => exact (no hp rfl).elim
  | missing hp => rcases hp with hp | hp <;> exact (no hp rfl).elim
  | @change fault w ev todo done errno k hp =>
    right
    dsimp only; rw [upd_self, hp]
    rw [hp] at hl
    cases w with
    | notify => simp [kqLeft, kqOwn]
    | call | rearm => cases hl
  | finCall hf => obtain ⟨_, _, hp⟩ := hf.pc; exact (no hp rfl).elim
  | finDelete hf => obtain ⟨_, _, hp⟩ := hf.pc; exact (no hp rfl).elim
  | finNotify hf => exact .inl (.inr rfl)
  | finRearm hf => obtain ⟨_, _, hp⟩ := hf.pc; exact (no hp rfl).elim
  | rearmRetry hf => obtain ⟨_, _, hp⟩ := hf.pc; exact (no hp rfl).elim
  | rearmErr hf => obtain ⟨_, _, hp⟩ := hf.pc; exact (no hp rfl).elim
  | writeFail hp => exact .inl (.inr rfl)
  | write hp => exact .inl (.inr rfl)
  | raise => exact .inr ⟨hl, Nat.le_refl _⟩
  | fall => exact .inr ⟨hl, Nat.le_refl _⟩

theorem kq_other {c s s' t u a o} (hn : Next c s u a s' o) (e : t ≠ u) : s'.pc t = s.pc t := by
  cases hn <;> first | rfl | exact upd_other _ e

/-- The kqueue poller, in every state: `notify` needs at most two steps after the first. -/
theorem kqueue_notify_never_waits (c : Cfg) (s : S) (t : Tid) (ht : t < c.threads) (hout : s.pc t = .out) :
    WaitFree (fun s x => step c s x.1 x.2) (t, .notifyCas) (kqOwn t) kqFine (kqReturned t) 2 s := by
  have htn : ¬ t ≥ c.threads := by omega
  refine waitFree_of (fun s => kqLeft (s.pc t) > 0) (fun s => kqLeft (s.pc t)) ?_ ?_ ?_ ?_
  · unfold step; rw [if_neg htn]; simp only [hout]; split <;> rfl
  · intro s1 o h
    unfold step at h; rw [if_neg htn] at h; simp only [hout] at h
    split at h <;> cases h
    · exact .inl (.inl rfl)
    · right
      dsimp only
      rw [upd_self]
      cases c.user <;> decide
  · intro s a s' o hi h
    obtain ⟨u, a⟩ := a
    have hn := (step_next h).2
    dsimp only at hn
    by_cases e : u = t
    · subst e; exact kq_own hn hi
    · right
      have hb : kqOwn t (u, a) = false := by
        have : (u == t) = false := by simpa using e
        cases a <;> first | rfl | exact this
      rw [kq_other hn (fun h => e h.symm), hb]
      exact ⟨hi, Nat.le_refl _⟩
  · intro s hi
    refine ⟨hi, ?_⟩
    cases hp : s.pc t with
    | nWrite =>
      refine ⟨(t, .write false), by simp [kqOwn], rfl, ?_⟩
      unfold step; rw [if_neg htn]; simp only [hp]; rfl
    | submit w todo done =>
      rw [hp] at hi
      cases w with
      | notify =>
        cases todo with
        | nil =>
          refine ⟨(t, .eval), by simp [kqOwn], rfl, ?_⟩
          unfold step; rw [if_neg htn]; simp only [hp]; rfl
        | cons ev todo =>
          refine ⟨(t, .change none), by simp [kqOwn], rfl, ?_⟩
          unfold step; rw [if_neg htn]; simp only [hp]; rfl
      | call | rearm => cases hi
    | _ => rw [hp] at hi; cases hi

/-- A thread is in `kevent()` with the notification of another; a third one calls `notify`, which returns at once; and so does the second. -/
example : (runLog (fun s x => step C04.userCfg s x.1 x.2) (init C04.userCfg fun _ => none)
      [(0, .wait false 4), (1, .notifyCas), (2, .notifyCas), (1, .change none), (1, .eval)] []).map (fun r => r.2.map Prod.snd) =
    some [.notified 1, .armed 1 (.user 0) (keyToU64 NOTIFY_KEY) false false, .notifySeen 2, .notifyBegin 1, .waitBegin 0] := by decide +kernel

end Kqueue

section Iocp
open IocpM IocpSpec

/-- `notify` returned. -/
def iocpReturned (t : Tid) (o : IObs) : Prop := o = .notifySeen t ∨ o = .notified t ∨ ∃ e, o = .notifyErr t e

/-- The steps of thread `t`. -/
def iocpOwn (t : Tid) : Act → Bool
  | .call u _ | .go u _ | .notifyCas u | .notifyPost u _ => u == t
  | _ => false

/-- No call fails. -/
def iocpFine : Act → Bool
  | .notifyPost _ fault => fault.isNone
  | _ => true

theorem goWait_pc {s fault s' o} (h : goWait s fault = some (s', o)) : s'.pc = s.pc := by
  have fail : ∀ {s0 w e}, s0.pc = s.pc → some (waitFail s0 w e) = some (s', o) → s'.pc = s.pc := by
    intro s0 w e h0 h
    have h := congrArg Prod.fst (Option.some.inj h)
    rw [← show _ = s' from h, ← h0]
    unfold waitFail; split <;> rfl
  unfold goWait at h
  split at h
  · cases h; rfl
  · cases h; rfl
  · split at h <;> cases h <;> rfl
  · split at h <;> cases h <;> rfl
  · cases h; rfl
  · exact fail (s0 := { s with c := { s.c with polling := false } }) rfl h
  · exact fail rfl h
  · cases h; rfl
  · split at h <;> cases h <;> rfl
  · split at h <;> cases h <;> rfl
  · cases h; rfl
  · cases h

theorem iocp_keeps {n s a s' o t} (h : step n s a = some (s', o)) (hp : s.pc t = .notify) : s'.pc t = .notify ∧ iocpOwn t a = false ∨ iocpReturned t o := by
  have keep : iocpOwn t a = false → s'.pc = s.pc → s'.pc t = .notify ∧ iocpOwn t a = false ∨ iocpReturned t o := by
    intro h1 h2; rw [h2]; exact .inl ⟨hp, h1⟩
  cases a with
  | call u call =>
    simp only [step] at h
    by_cases e : u = t
    · subst e; rw [hp] at h; simp only at h; split at h <;> cases h
    · have he : (u == t) = false := by simpa using e
      repeat' split at h
      all_goals cases h
      · exact .inl ⟨hp, he⟩
      · exact .inl ⟨hp, he⟩
      all_goals
        left
        refine ⟨?_, he⟩
        show upd _ _ _ _ = _
        unfold upd
        rw [if_neg (fun h => e h.symm)]; exact hp
  | go u fault =>
    simp only [step] at h
    split at h
    · cases h
    · by_cases e : u = t
      · subst e; simp only [goCall, hp] at h; cases h
      · have he : (u == t) = false := by simpa using e
        left
        refine ⟨?_, he⟩
        obtain ⟨_, _, _, _, p, h1, _⟩ := goCall_notify h
        rw [h1]; unfold upd; rw [if_neg (fun h => e h.symm)]; exact hp
  | notifyCas u =>
    simp only [step] at h
    by_cases e : u = t
    · subst e; rw [hp] at h; simp only at h; split at h <;> cases h
    · have he : (u == t) = false := by simpa using e
      repeat' split at h
      all_goals cases h
      · exact .inl ⟨hp, he⟩
      · left
        refine ⟨?_, he⟩
        show upd _ _ _ _ = _
        unfold upd
        rw [if_neg (fun h => e h.symm)]; exact hp
  | notifyPost u fault =>
    simp only [step] at h
    by_cases e : u = t
    · subst e
      repeat' split at h
      all_goals cases h
      · exact .inr (.inr (.inr ⟨_, rfl⟩))
      · exact .inr (.inr (.inl rfl))
    · have he : (u == t) = false := by simpa using e
      repeat' split at h
      all_goals cases h
      all_goals
        left
        refine ⟨?_, he⟩
        show upd _ _ _ _ = _
        unfold upd
        rw [if_neg (fun h => e h.symm)]; exact hp
  | wait fault => exact keep rfl (goWait_pc h)
  | _ =>
    simp only [step] at h
    repeat' split at h
    all_goals cases h
    all_goals exact keep rfl rfl

/-- The IOCP poller, in every state: `notify` needs one step after the first. -/
theorem iocp_notify_never_waits (n : Nat) (s : S) (t : Tid) (ht : t < n) (hout : s.pc t = .out) :
    WaitFree (step n) (.notifyCas t) (iocpOwn t) iocpFine (iocpReturned t) 1 s := by
  have htn : ¬ t ≥ n := by omega
  refine waitFree_of (fun s => s.pc t = .notify) (fun _ => 1) ?_ ?_ ?_ ?_
  · simp only [step, if_neg htn, hout]; split <;> rfl
  · intro s1 o h
    simp only [step, if_neg htn, hout] at h
    split at h <;> cases h
    · exact .inl (.inl rfl)
    · exact .inr ⟨by simp [upd], Nat.le_refl _⟩
  · intro s a s' o hi h
    rcases iocp_keeps h hi with ⟨h1, h2⟩ | h1
    · right; rw [h2]; exact ⟨h1, Nat.le_refl _⟩
    · exact .inl h1
  · intro s hi
    refine ⟨Nat.one_pos, .notifyPost t none, by simp [iocpOwn], rfl, ?_⟩
    simp only [step, hi]; rfl

/-- A thread waits at the port, another one is in `add`; a third one calls `notify`, which returns. -/
example : (runLog (step 3) init (blockActs 0 4 ++ [.call 0 (.add true 7 (Event.onlyReadable 5) .oneshot), .notifyCas 1, .go 0 none, .notifyPost 1 none]) []).map
    (fun r => (r.2.map Prod.snd).filter (· ≠ .tau)) =
    some [.notified 1, .notifyBegin 1, .begin 0 (.add true 7 (Event.onlyReadable 5) .oneshot), .waitBegin] := by decide +kernel

end Iocp

section Epoll
open EpollM Epoll

theorem epoll_inflight {c : Cfg} {s s' : S} {a o} (ha : a ≠ .notifyWrite) (h : step c s a = some (s', o)) : s.inflight ≤ s'.inflight := by
  have fail : ∀ {s0 dl cap e}, s0.inflight = s.inflight → some (waitFail s0 dl cap e) = some (s', o) → s.inflight ≤ s'.inflight := by
    intro s0 dl cap e h0 h
    have h := congrArg Prod.fst (Option.some.inj h)
    rw [← show _ = s' from h, ← h0]
    unfold waitFail; split <;> exact Nat.le_refl _
  cases a with
  | notifyWrite => exact (ha rfl).elim
  | notifyCas =>
    simp only [step] at h
    repeat' split at h
    all_goals cases h
    · exact Nat.le_refl _
    · exact Nat.le_succ _
  | settime fault =>
    simp only [step] at h
    repeat' split at h
    all_goals first | exact fail rfl h | (cases h <;> exact Nat.le_refl _)
  | armTimer fault =>
    simp only [step] at h
    repeat' split at h
    all_goals first | (cases h <;> exact Nat.le_refl _) | (refine fail ?_ h; rfl)
  | epollFail e =>
    simp only [step] at h
    repeat' split at h
    all_goals first | exact fail rfl h | (cases h <;> exact Nat.le_refl _)
  | rearm fault =>
    simp only [step] at h
    repeat' split at h
    all_goals first | (cases h <;> exact Nat.le_refl _) | (refine fail ?_ h; rfl)
  | _ =>
    simp only [step] at h
    repeat' split at h
    all_goals (cases h <;> exact Nat.le_refl _)

/-- The epoll poller, in every reachable state.  A thread that is not inside `notify` can begin it, which returns at once or leaves the write; and
a thread that is inside can write and return, at any time: nothing that another thread or the system does takes this away, and the eventfd or
pipe has room, so that the write does not block. -/
theorem epoll_notify_never_waits (c : Cfg) (hok : c.Ok) (s : S) (tr : List (Obs EventExtra)) (h : Reach c s tr) :
    (s.inflight < c.threads → ∃ s' o, step c s .notifyCas = some (s', o) ∧ (o = .notified ∨ s'.inflight = s.inflight + 1)) ∧
    (∀ a s' o, a ≠ .notifyWrite → step c s a = some (s', o) → s.inflight ≤ s'.inflight) ∧
    (s.inflight > 0 → s.k.count < c.threads + 2 ∧ ∃ s', step c s .notifyWrite = some (s', .notified) ∧ s'.inflight + 1 = s.inflight) := by
  refine ⟨?_, fun a s' o ha h => epoll_inflight ha h, ?_⟩
  · intro hi
    cases hb : s.notified with
    | true => exact ⟨s, .notified, by simp only [step, hb, if_true], .inl rfl⟩
    | false => exact ⟨{ s with notified := true, inflight := s.inflight + 1 }, .tau, by simp [step, hb, hi], .inr rfl⟩
  · intro hi
    refine ⟨(C35.epoll_channel_bounded c hok s tr h).2 hi, ?_⟩
    simp only [step, if_pos hi]
    exact ⟨_, rfl, by simp only; omega⟩

/-- The waiter sleeps in `epoll_wait`; two threads are in `notify`, one of which finds `notified` set. -/
example : (runActs ⟨true, 3, 4, false, 2⟩ (EpollM.init ⟨true, 3, 4, false, 2⟩ (fun _ => 0#32))
    [.waitBegin none 5, .compute, .settime none, .armTimer none, .notifyCas, .notifyCas, .notifyWrite]).map (fun r => (r.1.inflight, r.2.take 3)) =
    some (0, [.notified, .notified, .tau]) := by decide +kernel

end Epoll

section Port
open PortM

theorem port_inflight {threads} {s s' : S} {a o} (ha : ∀ f, a ≠ .notifySend f) (h : step threads s a = some (s', o)) : s.inflight ≤ s'.inflight := by
  cases a with
  | notifySend f => exact (ha f rfl).elim
  | notifyCas =>
    simp only [step] at h
    repeat' split at h
    all_goals cases h
    · exact Nat.le_refl _
    · exact Nat.le_succ _
  | _ =>
    simp only [step] at h
    repeat' split at h
    all_goals (cases h <;> exact Nat.le_refl _)

/-- The event-port poller, in every state.  A thread that is not inside `notify` can begin it, which returns at once or leaves `port_send`; and a
thread that is inside can make that call and return, at any time: nothing that another thread or the system does takes this away. -/
theorem port_notify_never_waits (threads : Nat) (s : S) :
    (s.inflight < threads → ∃ s' o, step threads s .notifyCas = some (s', o) ∧ (o = .notified ∨ s'.inflight = s.inflight + 1)) ∧
    (∀ a s' o, (∀ f, a ≠ .notifySend f) → step threads s a = some (s', o) → s.inflight ≤ s'.inflight) ∧
    (s.inflight > 0 → ∃ s', step threads s (.notifySend none) = some (s', .notified) ∧ s'.inflight + 1 = s.inflight) := by
  refine ⟨?_, fun a s' o ha h => port_inflight ha h, ?_⟩
  · intro hi
    cases hb : s.notified with
    | true => exact ⟨s, .notified, by simp only [step, hb, if_true], .inl rfl⟩
    | false => exact ⟨{ s with notified := true, inflight := s.inflight + 1 }, .tau, by simp [step, hb, hi], .inr rfl⟩
  · intro hi
    simp only [step, if_pos hi]
    exact ⟨_, rfl, by simp only; omega⟩

/-- The waiter sleeps in `port_getn`; two threads are in `notify`, one of which finds `notified` set. -/
example : (runActs 2 (PortM.init fun _ => 0#16) [.waitBegin none 5, .compute, .notifyCas, .notifyCas, .notifySend none]).map
    (fun r => (r.1.inflight, r.2.take 3)) = some (0, [.notified, .notified, .tau]) := by decide +kernel

end Port

end Polling.C69
