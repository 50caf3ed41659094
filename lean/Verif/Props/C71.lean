import Verif.Props.C70
import Verif.Proof.PollProgress

/-! C71: a `wait` that the system has answered comes back with what it was answered, whatever other threads do meanwhile. -/

namespace Polling.C71
open Spec

/-- The steps of `next` that satisfy `P`. -/
def only {S A O : Type} (P : A → Bool) (next : S → A → Option (S × O)) (s : S) (a : A) : Option (S × O) := if P a then next s a else none

/-- What a `wait` returned: the number, and key and readiness of each event. -/
def told {X : Type} : Obs X → Option (Nat × List (Nat × Bool × Bool))
  | .waitOk n evs => some (n, evs.map fun e => (e.key.toNat, e.readable, e.writable))
  | _ => none

theorem only_some {S A O : Type} {P : A → Bool} {next : S → A → Option (S × O)} {s a r} (h : only P next s a = some r) : P a = true ∧ next s a = some r := by
  unfold only at h
  split at h
  · next hp => exact ⟨hp, h⟩
  · cases h

section Epoll
open EpollM Epoll

/-- The steps of the thread that waits, from the return of `epoll_wait` on. -/
def epOwn : Act → Bool
  | .clearRead | .rearm _ | .finish => true
  | _ => false

/-- No signal interrupts `epoll_ctl` (which does not sleep). -/
def epCalm : Act → Bool
  | .rearm (some .interrupted) => false
  | _ => true

/-- No call fails. -/
def epFine : Act → Bool
  | .rearm fault => fault.isNone
  | _ => true

/-- The `wait` returned these events, or an error. -/
def epReturned (evs : List (Event EventExtra)) (o : Obs EventExtra) : Prop := o = .waitOk evs.length evs ∨ ∃ e, o = .waitErr e

/-- The notifications that are in the channel or may come before `notified` is reset. -/
def epRoom (s : S) : Nat := s.k.count + s.inflight + C35.mayWrite s

/-- The events that a `wait` has, once `epoll_wait` has returned. -/
def epHas : Phase → Option (List (Event EventExtra))
  | .clearing _ _ evs | .cleared _ _ evs | .rearmed _ _ evs => some (visible evs)
  | _ => none

/-- How many steps a `wait` has left, at most. -/
def epLeft (c : Cfg) (s : S) : Nat :=
  match s.phase with
  | .clearing _ _ _ => (if c.pipe then epRoom s else 0) + 3
  | .cleared _ _ _ => 2
  | .rearmed _ _ _ => 1
  | _ => 0

theorem ep_kern {s : S} {k : Kern} (hk : k.count = s.k.count) : epRoom { s with k } = epRoom s := by
  unfold epRoom C35.mayWrite; simp only [hk]

theorem ep_mod {c fault k x ev mode r k'} (h : EpollM.modify c fault k x ev mode = (r, k')) : k'.count = k.count := by
  rcases ctlMod_cases h with ⟨_, _, rfl⟩ | ⟨_, rfl⟩
  · rw [link_eq]; rfl
  · rfl

theorem ep_other {c : Cfg} {s s' : S} {a o evs} (h : step c s a = some (s', o)) (ha : epOwn a = false) (he : epHas s.phase = some evs) :
    s'.phase = s.phase ∧ epRoom s' ≤ epRoom s := by
  have no : ∀ {p}, s.phase = p → epHas p = none → False := by intro p h1 h2; rw [h1, h2] at he; cases he
  have kern : ∀ {k : Kern}, k.count = s.k.count → ({ s with k } : S).phase = s.phase ∧ epRoom { s with k } ≤ epRoom s :=
    fun hk => ⟨rfl, Nat.le_of_eq (ep_kern hk)⟩
  cases a with
  | add fd ev mode fault =>
    simp only [step] at h
    split at h
    · cases h
    split at h
    · cases h
    split at h
    · cases h; exact ⟨rfl, Nat.le_refl _⟩
    rcases hm : EpollM.add c fault s.k fd ev mode with ⟨r, k⟩
    have hk : k.count = s.k.count := by
      rcases ctlAdd_cases hm with ⟨_, _, rfl⟩ | ⟨_, rfl⟩
      · rw [link_eq]; rfl
      · rfl
    rw [hm] at h
    cases r <;> (cases h; exact kern hk)
  | modify fd ev mode fault =>
    simp only [step] at h
    split at h
    · cases h
    split at h
    · cases h
    split at h
    · cases h; exact ⟨rfl, Nat.le_refl _⟩
    rcases hm : EpollM.modify c fault s.k fd ev mode with ⟨r, k⟩
    rw [hm] at h
    cases r <;> (cases h; exact kern (ep_mod hm))
  | delete fd fault =>
    simp only [step] at h
    split at h
    · cases h
    rcases hm : EpollM.delete fault s.k fd with ⟨r, k⟩
    have hk : k.count = s.k.count := by rcases ctlDel_cases hm with ⟨_, _, rfl⟩ | ⟨_, rfl⟩ <;> rfl
    rw [hm] at h
    cases r <;> (cases h; exact kern hk)
  | notifyCas =>
    simp only [step] at h
    split at h
    · cases h; exact ⟨rfl, Nat.le_refl _⟩
    · next hn =>
      split at h
      · cases h
        refine ⟨rfl, ?_⟩
        unfold epRoom C35.mayWrite
        simp only [hn, if_true, Bool.false_eq_true, if_false]
        omega
      · cases h
  | notifyWrite =>
    simp only [step] at h
    split at h
    · cases h
      refine ⟨rfl, ?_⟩
      unfold epRoom C35.mayWrite
      rw [link_eq]
      simp only
      omega
    · cases h
  | waitBegin timeout cap =>
    simp only [step] at h
    split at h
    · next hp => exact (no hp rfl).elim
    · cases h
  | waitBusy =>
    simp only [step] at h
    repeat' split at h
    all_goals (cases h <;> exact ⟨rfl, Nat.le_refl _⟩)
  | compute | settime | armTimer | epollReturn | epollFail =>
    simp only [step] at h
    split at h
    · next hp => exact (no hp rfl).elim
    · cases h
  | clearRead | rearm | finish => cases ha
  | setReady fd flags key =>
    simp only [step] at h
    repeat' split at h
    all_goals cases h
    exact kern (by rw [link_eq])
  | tick dt =>
    simp only [step] at h
    repeat' split at h
    all_goals cases h
    all_goals first | exact kern rfl | exact kern (by rw [link_eq])

theorem ep_own {c : Cfg} {s s' : S} {a o evs} (h : step c s a = some (s', o)) (ha : epOwn a = true) (hc : epCalm a = true)
    (he : epHas s.phase = some evs) :
    epReturned evs o ∨ (epHas s'.phase = some evs ∧ epLeft c s' + 1 ≤ epLeft c s) := by
  cases a with
  | clearRead =>
    simp only [step] at h
    split at h
    · next dl cap evs' hp =>
      right
      rw [hp] at he
      split at h
      · next hq =>
        cases h
        refine ⟨by simp only [hp]; exact he, ?_⟩
        simp only [epLeft, hp, hq.1, if_true, epRoom, C35.mayWrite]
        omega
      · cases h
        refine ⟨he, ?_⟩
        simp only [epLeft, hp]
        omega
    · cases h
  | rearm fault =>
    simp only [step] at h
    split at h
    · next dl cap evs' hp =>
      rw [hp] at he
      rcases hm : EpollM.modify c fault s.k c.notifFd (Event.onlyReadable NOTIFY_KEY) .oneshot with ⟨r, k⟩
      rw [hm] at h
      cases r with
      | ok =>
        cases h
        exact .inr ⟨he, by simp only [epLeft, hp]; omega⟩
      | err e =>
        have hne : e ≠ .interrupted := by
          rintro rfl
          unfold EpollM.modify ctlMod at hm
          cases fault with
          | some e => cases hm; cases hc
          | none => simp only at hm; split at hm <;> cases hm
        have h := congrArg Prod.snd (Option.some.inj h)
        simp only [waitFail, if_neg hne] at h
        exact .inl (.inr ⟨e, h.symm⟩)
    · cases h
  | finish =>
    simp only [step] at h
    split at h
    · next dl cap evs' hp =>
      rw [hp] at he
      cases h
      cases he
      exact .inl (.inl rfl)
    · cases h
  | _ => cases ha

/-- The epoll poller, in every state: once there is something to report, or the time is up, `epoll_wait` can return, and then the `wait` needs only a
bounded number of steps of its own, none of which has to wait for another thread, to return exactly what was reported; registration calls and
notifications of other threads do not matter, nor does what happens to the sources. -/
theorem epoll_wait_comes_back (c : Cfg) (s : S) (dl : Option Nat) (cap : Nat) (timeout : Option Duration) (t0 : Nat) (hp : s.phase = .polling dl cap timeout t0)
    (hr : (harvest c s.k cap).1 ≠ [] ∨ timeUp (epollTimeoutMs c.hasTimer timeout) t0 s.k.time = true) :
    WaitFree (only epCalm (step c)) .epollReturn epOwn epFine (epReturned (visible (harvest c s.k cap).1))
      ((if c.pipe then s.k.count + s.inflight + 1 else 0) + 3) s := by
  have h0 : only epCalm (step c) s .epollReturn = some ({ s with k := (harvest c s.k cap).2, phase := .clearing dl cap (harvest c s.k cap).1 },
      .deliver (((harvest c s.k cap).1.filter fun e => !c.internal e.1).map fun e => (e.1, toEvent e.2))) := by
    simp only [only, epCalm, if_true, step, hp, if_pos hr]
  refine waitFree_of (fun s' => epHas s'.phase = some (visible (harvest c s.k cap).1)) (epLeft c) ?_ ?_ ?_ ?_
  · rw [h0]; rfl
  · intro s1 o h
    rw [h0] at h
    cases h
    refine .inr ⟨rfl, ?_⟩
    simp only [epLeft, epRoom, C35.mayWrite, harvest]
    repeat' split
    all_goals omega
  · intro s1 a s' o hi h
    obtain ⟨hc, h⟩ := only_some h
    cases ha : epOwn a with
    | true => simpa using ep_own h ha hc hi
    | false =>
      obtain ⟨h1, h2⟩ := ep_other h ha hi
      refine .inr ⟨by rw [h1]; exact hi, ?_⟩
      simp only [Bool.false_eq_true, if_false, Nat.add_zero, epLeft, h1]
      split <;> first | exact Nat.le_refl _ | (split <;> omega)
  · intro s1 hi
    cases hq : s1.phase with
    | clearing dl' cap' evs' =>
      refine ⟨by simp only [epLeft, hq]; omega, .clearRead, rfl, rfl, ?_⟩
      simp only [only, epCalm, if_true, step, hq]; split <;> rfl
    | cleared dl' cap' evs' =>
      refine ⟨by simp only [epLeft, hq]; omega, .rearm none, rfl, rfl, ?_⟩
      simp only [only, epCalm, if_true, step, hq]
      split <;> rfl
    | rearmed dl' cap' evs' =>
      refine ⟨by simp only [epLeft, hq]; omega, .finish, rfl, rfl, ?_⟩
      simp only [only, epCalm, if_true, step, hq]; rfl
    | _ => rw [hq] at hi; cases hi

/-- A pipe.  `epoll_wait` has reported source 7; before the `wait` returns, a notification comes, is read away, and the source is deleted: the
`wait` returns the event of source 7. -/
example : (runLog (only epCalm (step ⟨true, 3, 4, true, 2⟩)) (EpollM.init ⟨true, 3, 4, true, 2⟩ (fun _ => 0#32))
      [.add 7 (Event.onlyReadable 1) .level none, .waitBegin none 5, .compute, .settime none, .armTimer none, .setReady 7 IN IN, .epollReturn,
       .notifyCas, .notifyWrite, .clearRead, .delete 7 none, .clearRead, .rearm none, .finish] []).bind (fun r => r.2.head?.bind fun x => told x.2) =
    some (1, [(1, true, false)]) := by decide +kernel

end Epoll

section Port
open PortM Port

/-- The steps of the thread that waits, from the return of `port_getn` on. -/
def poOwn : Act → Bool
  | .finish => true
  | _ => false

/-- Event ports, in every state: once there is something to report, or the time is up, `port_getn` can return, and then the `wait` returns exactly what
was reported with its next step, whatever other threads do before. -/
theorem port_wait_comes_back (n : Nat) (s : S) (dl : Option Nat) (cap : Nat) (timeout : Option Duration) (t0 : Nat) (hp : s.phase = .polling dl cap timeout t0)
    (hr : s.k.queue ≠ [] ∨ timeUp timeout t0 s.k.time = true) (evs : List (Option Fd × Port.RawEvent)) (he : evs = if s.k.queue ≠ [] then (PortM.getn s.k cap).1 else []) :
    WaitFree (step n) .getn poOwn (fun _ => true) (fun o => o = .waitOk (visible evs).length (visible evs)) 1 s := by
  refine waitFree_of (fun s' => s'.phase = .taken evs) (fun _ => 1) ?_ ?_ ?_ ?_
  · simp only [step, hp]
    split
    · rfl
    · next hq => rw [if_pos (hr.resolve_left hq)]; rfl
  · intro s1 o h
    simp only [step, hp] at h
    split at h
    · next hq => rw [if_pos hq] at he; subst he; cases h; exact .inr ⟨rfl, Nat.le_refl _⟩
    · next hq =>
      rw [if_neg hq] at he; subst he
      split at h
      · cases h; exact .inr ⟨rfl, Nat.le_refl _⟩
      · cases h
  · intro s1 a s' o hi h
    cases a with
    | finish => simp only [step, hi] at h; cases h; exact .inl rfl
    | _ =>
      right
      refine ⟨?_, by simp [poOwn]⟩
      simp only [step, hi] at h
      repeat' split at h
      all_goals first | (cases h; done) | (cases h; exact hi) | (cases h; rfl)
  · intro s1 hi
    exact ⟨Nat.one_pos, .finish, rfl, rfl, by simp only [step, hi]; rfl⟩

/-- `port_getn` has reported source 7; before the `wait` returns, the source is registered anew and a notification is made. -/
example : (runLog (step 2) (PortM.init (fun _ => 0#16))
      [.add 7 (Event.onlyReadable 1) .oneshot none, .waitBegin none 5, .compute, .setReady 7 1#16 1#16, .getn,
       .notifyCas, .modify 7 (Event.onlyWritable 2) .oneshot none, .notifySend none, .finish] []).bind (fun r => r.2.head?.bind fun x => told x.2) =
    some (1, [(1, true, false)]) := by decide +kernel

end Port

section Kqueue
open KqM Kqueue KqSpec

/-- No signal interrupts the re-arming of the notifier, with which `wait` ends. -/
def kqCalm (t : Tid) : Tid × Act → Bool
  | (u, .kfail .interrupted) => u != t
  | _ => true

/-- The `wait` returned these events, or an error. -/
def kqReturned (t : Tid) (evs : List (Event EventExtra)) (o : KObs) : Prop := o = .waitOk t evs.length evs ∨ ∃ e, o = .waitErr t e

/-- The events that a `wait` has, once `kevent` has returned. -/
def kqHas : Pc → Option (List (Event EventExtra))
  | .wClear _ _ evs | .wHas _ _ evs | .submit (.rearm _ _ evs) _ _ | .wFin evs => some (visible evs)
  | _ => none

def writing : Pc → Bool
  | .nWrite => true
  | _ => false

/-- The bytes that are in the channel or may come before `notified` is reset. -/
def kqRoom (c : Cfg) (s : S) : Nat := s.k.chan + C35.kqMayWrite s + cnt c.threads writing s.pc

/-- How many steps a `wait` has left, at most. -/
def kqLeft (c : Cfg) (t : Tid) (s : S) : Nat :=
  match s.pc t with
  | .wClear _ _ _ => kqRoom c s + 6
  | .wHas _ _ _ => 5
  | .submit (.rearm _ _ _) todo _ => todo.length + 2
  | .wFin _ => 1
  | _ => 0

theorem kqHas_inWait {p evs} (h : kqHas p = some evs) : inWait p = true := by
  cases p with
  | submit w todo done => cases w <;> first | rfl | cases h
  | _ => first | rfl | cases h

theorem submitResult_not_interrupted (l : List KEvent) : submitResult l ≠ .err .interrupted := by
  induction l with
  | nil => intro h; cases h
  | cons ev l ih => unfold submitResult; split <;> first | exact ih | (intro h; cases h)

/-- Steps of threads that are not in a `wait` leave no more to read. -/
theorem kq_room {c s s' u a o} (hu : u < c.threads) (hn : Next c s u a s' o) (hw : inWait (s.pc u) = false) (hl : s.lib.isSome = true) : kqRoom c s' ≤ kqRoom c s := by
  have hcu := fun p => cnt_upd writing s.pc hu p
  have no : ∀ {p}, s.pc u = p → inWait p = true → False := by intro p h1 h2; rw [h1, h2] at hw; cases hw
  unfold kqRoom C35.kqMayWrite
  have same : ∀ {k : Kern} {p : Pc} {l src}, k.chan = s.k.chan → writing p = writing (s.pc u) ∨ writing p = false →
      (⟨k, src, s.notified, l, upd s.pc u p⟩ : S).k.chan + (if s.notified then 0 else 1) + cnt c.threads writing (upd s.pc u p) ≤
        s.k.chan + (if s.notified then 0 else 1) + cnt c.threads writing s.pc := by
    intro k p l src hk hp
    have := hcu p
    simp only [hk]
    have e : cnt c.threads writing (upd s.pc u p) ≤ cnt c.threads writing s.pc := by
      unfold upd
      rcases hp with hp | hp
      · rw [hp] at this; omega
      · rw [hp] at this; simp at this; omega
    omega
  cases hn with
  | reject | panic0 | casSeen | waitBusy | fall => exact Nat.le_refl _
  | raise => simp only [activate_chan]; exact Nat.le_refl _
  | kevRetry hp | kevErr hp | wMissing hp | wHas hp | read hp | readEnd hp | finish hp | kevent hp => exact (no hp rfl).elim
  | finRearm hf => obtain ⟨_, _, hp⟩ := hf.pc; exact (no hp rfl).elim
  | rearmRetry hf => obtain ⟨_, _, hp⟩ := hf.pc; exact (no hp rfl).elim
  | rearmErr hf => obtain ⟨_, _, hp⟩ := hf.pc; exact (no hp rfl).elim
  | waitBegin _ hnone => rw [hnone] at hl; cases hl
  | @begin call hp => exact same rfl (.inr (by cases call <;> rfl))
  | @change fault w ev todo done errno k hp hf hr => exact same (reg_env (register_reg hr)).2 (.inr rfl)
  | casUser hp hno =>
    have := hcu (.submit .notify [userChange true] [])
    simp only [hp, writing, Bool.toNat_false, hno, Bool.false_eq_true, if_false] at this ⊢
    unfold upd
    simp only [if_true]
    omega
  | casPair hp hno =>
    have := hcu .nWrite
    simp only [hp, writing, Bool.toNat_false, Bool.toNat_true, hno, Bool.false_eq_true, if_false] at this ⊢
    unfold upd
    simp only [if_true]
    omega
  | write hp =>
    have := hcu .out
    simp only [hp, writing, Bool.toNat_false, Bool.toNat_true, activate_chan] at this ⊢
    unfold upd
    omega
  | _ => exact same rfl (.inr rfl)

theorem kq_own {c s s' t a o evs} (hn : Next c s t a s' o) (hc : kqCalm t (t, a) = true) (hl : kqHas (s.pc t) = some evs) :
    kqReturned t evs o ∨ (kqHas (s'.pc t) = some evs ∧ kqLeft c t s' + (if C69.kqOwn t (t, a) then 1 else 0) ≤ kqLeft c t s) := by
  have no : ∀ {p}, s.pc t = p → kqHas p = none → False := by intro p h1 h2; rw [h1, h2] at hl; cases hl
  have has : ∀ {p evs'}, s.pc t = p → kqHas p = some evs' → evs' = evs := by
    intro p call' h1 h2; rw [h1, h2] at hl; exact Option.some.inj hl
  have one : (if C69.kqOwn t (t, a) = true then 1 else 0) ≤ 1 := by split <;> omega
  cases hn with
  | reject hp | panic0 hp | dup hp | inserted hp | panic hp | has hp | removed hp | ended hp | kevRetry hp | kevErr hp
  | casSeen hp | casUser hp | casPair hp | waitBusy hp | waitBegin hp | kevent hp | writeFail hp | write hp => exact (no hp rfl).elim
  | begin hp => exact (no hp rfl).elim
  | missing hp => rcases hp with hp | hp <;> exact (no hp rfl).elim
  | finCall hf => obtain ⟨_, _, hp⟩ := hf.pc; exact (no hp rfl).elim
  | finDelete hf => obtain ⟨_, _, hp⟩ := hf.pc; exact (no hp rfl).elim
  | finNotify hf => obtain ⟨_, _, hp⟩ := hf.pc; exact (no hp rfl).elim
  | wMissing hp => exact .inl (.inr ⟨_, rfl⟩)
  | rearmErr hf => exact .inl (.inr ⟨_, rfl⟩)
  | finish hp => cases has hp rfl; exact .inl (.inl rfl)
  | rearmRetry hf =>
    generalize hr : Res.err Err.interrupted = r at hf
    cases hf with
    | eval => exact (submitResult_not_interrupted _ hr.symm).elim
    | fail => cases hr; simp [kqCalm] at hc
  | finRearm hf =>
    obtain ⟨_, _, hp⟩ := hf.pc
    cases has hp rfl
    right
    simp only [kqLeft, upd_self, hp]
    exact ⟨rfl, by omega⟩
  | wHas hp =>
    cases has hp rfl
    right
    simp only [kqLeft, upd_self, hp]
    exact ⟨rfl, by simp only [fdChanges, List.length_cons, List.length_nil]; omega⟩
  | @change fault w ev todo done errno k hp =>
    cases w with
    | notify | call => exact (no hp rfl).elim
    | rearm timed cap evs' =>
      cases has hp rfl
      right
      simp only [kqLeft, upd_self, hp]
      exact ⟨rfl, by simp only [List.length_cons]; omega⟩
  | read hp hch =>
    cases has hp rfl
    right
    simp only [kqLeft, hp, kqRoom, C35.kqMayWrite]
    exact ⟨rfl, by omega⟩
  | readEnd hp =>
    cases has hp rfl
    right
    simp only [kqLeft, upd_self, hp]
    exact ⟨rfl, by omega⟩
  | raise =>
    right
    refine ⟨hl, ?_⟩
    simp only [kqLeft, kqRoom, C35.kqMayWrite, activate_chan, C69.kqOwn]
    exact Nat.le_refl _
  | fall => exact .inr ⟨hl, Nat.le_refl _⟩

/-- The kqueue poller, in every reachable state: once there is something to report (or a timeout was given, and is over), `kevent` can return, and then
the `wait` needs only a bounded number of steps of its own, none of which has to wait for another thread, to return exactly what was reported. -/
theorem kqueue_wait_comes_back (c : Cfg) (P) (s : S) (tr : List KObs) (h : Reach c P s tr) (t : Tid) (timed : Bool) (cap : Nat)
    (hp : s.pc t = .wKev timed cap) (hr : (harvest c s.k cap).1 ≠ [] ∨ timed = true) :
    WaitFree (only (kqCalm t) fun s x => step c s x.1 x.2) (t, .kevent) (C69.kqOwn t) C69.kqFine (kqReturned t (visible (harvest c s.k cap).1))
      (if c.user then 1 else s.k.chan + c.threads + 7) s := by
  have htn : ¬ t ≥ c.threads := by
    intro hge; rw [reach_range h t hge] at hp; cases hp
  have h0 : only (kqCalm t) (fun s x => step c s x.1 x.2) s (t, .kevent) = some ({ s with k := (harvest c s.k cap).2, pc := upd s.pc t (if c.user then
        .wFin (harvest c s.k cap).1 else .wClear timed cap (harvest c s.k cap).1) },
      .deliver t ((harvest c s.k cap).1.filter fun e => !c.internal e.filter)) := by
    simp only [only, kqCalm, if_true, step, hp, if_neg htn, if_pos hr]
  refine waitFree_of (fun s' => kqHas (s'.pc t) = some (visible (harvest c s.k cap).1) ∧ ∀ u, s'.lib = some u ↔ inWait (s'.pc u) = true) (kqLeft c t)
    ?_ ?_ ?_ ?_
  · rw [h0]; rfl
  · intro s1 o h1
    have hlib := next_lib (step_next (only_some h1).2).2 (reach_lib h)
    rw [h0] at h1
    cases h1
    refine .inr ⟨⟨?_, hlib⟩, ?_⟩
    · dsimp only; rw [upd_self]; split <;> rfl
    · simp only [kqLeft, upd_self]
      cases c.user with
      | true => exact Nat.le_refl _
      | false =>
        have hle := cnt_le c.threads writing (upd s.pc t (.wClear timed cap (harvest c s.k cap).1))
        simp only [kqRoom, C35.kqMayWrite, Bool.false_eq_true, if_false]
        have hch : (harvest c s.k cap).2.chan = s.k.chan := rfl
        rw [hch]
        split <;> omega
  · intro s1 x s' o hi hs
    obtain ⟨u, a⟩ := x
    obtain ⟨hc, hs⟩ := only_some hs
    obtain ⟨hu, hn⟩ := step_next hs
    have hlib := next_lib hn hi.2
    dsimp only at hn hu
    by_cases e : u = t
    · subst e
      rcases kq_own hn hc hi.1 with h | ⟨h1, h2⟩
      · exact .inl h
      · exact .inr ⟨⟨h1, hlib⟩, h2⟩
    · right
      have hb : C69.kqOwn t (u, a) = false := by
        have : (u == t) = false := by simpa using e
        cases a <;> first | rfl | exact this
      have hlt : s1.lib = some t := (hi.2 t).2 (kqHas_inWait hi.1)
      have hw : inWait (s1.pc u) = false := by
        cases hw : inWait (s1.pc u) with
        | false => rfl
        | true => have := (hi.2 u).2 hw; rw [hlt] at this; exact (e (Option.some.inj this).symm).elim
      have hro := kq_room hu hn hw (by rw [hlt]; rfl)
      have hpc := C69.kq_other hn (t := t) (fun h => e h.symm)
      refine ⟨⟨by rw [hpc]; exact hi.1, hlib⟩, ?_⟩
      rw [hb]
      simp only [Bool.false_eq_true, if_false, Nat.add_zero, kqLeft, hpc]
      split <;> first | exact Nat.le_refl _ | omega
  · intro s1 hi
    have hi := hi.1
    cases hq : s1.pc t with
    | wClear timed' cap' evs' =>
      refine ⟨by simp only [kqLeft, hq]; omega, (t, .read false), by simp [C69.kqOwn], rfl, ?_⟩
      simp only [only, kqCalm, if_true, step, hq, if_neg htn]; split <;> rfl
    | wHas timed' cap' evs' =>
      refine ⟨by simp only [kqLeft, hq]; omega, (t, .src), by simp [C69.kqOwn], rfl, ?_⟩
      simp only [only, kqCalm, if_true, step, hq, if_neg htn]; split <;> rfl
    | wFin evs' =>
      refine ⟨by simp only [kqLeft, hq]; omega, (t, .finish), by simp [C69.kqOwn], rfl, ?_⟩
      simp only [only, kqCalm, if_true, step, hq, if_neg htn]; rfl
    | submit w todo done =>
      cases w with
      | notify | call => rw [hq] at hi; cases hi
      | rearm timed' cap' evs' =>
        refine ⟨by simp only [kqLeft, hq]; omega, ?_⟩
        cases todo with
        | nil =>
          refine ⟨(t, .eval), by simp [C69.kqOwn], rfl, ?_⟩
          simp only [only, kqCalm, if_true, step, hq, if_neg htn]; rfl
        | cons ev todo =>
          refine ⟨(t, .change none), by simp [C69.kqOwn], rfl, ?_⟩
          simp only [only, kqCalm, if_true, step, hq, if_neg htn]; rfl
    | _ => rw [hq] at hi; cases hi

/-- A pair of sockets.  `kevent` has reported source 7; before the `wait` returns, another thread notifies, and its byte is read away, and then deletes
the source. -/
example : (runLog (only (kqCalm 0) fun s x => step C04.pairCfg s x.1 x.2) (init C04.pairCfg fun _ => none)
      [(1, .call (.add 7 (Event.onlyReadable 1) .level)), (1, .src), (1, .src), (1, .change none), (1, .change none), (1, .eval), (0, .wait false 4),
       (1, .cond (.read 7) (some false)), (0, .kevent), (1, .notifyCas), (1, .write false), (0, .read false), (1, .call (.delete 7)), (0, .read false),
       (0, .src), (1, .src), (0, .change none), (1, .change none), (0, .change none), (0, .eval), (0, .finish)] []).map
      (fun r => r.2.head?.map Prod.snd) = some (some (.waitOk 0 1 [Event.onlyReadable 1])) := by decide +kernel

end Kqueue

section Poll
open PollP PollB PollFlags PollSpec

/-- Only if nothing but the wake-up channel is ready does `wait` poll again. -/
theorem round_again_quiet {n : NotifyFds} {fds tbl : Fds} {os order b} (hi : Inv n fds) (h : round os order b fds = some (tbl, .again)) :
    os n.readFd n.flags ≠ 0#16 ∧ ∀ p ∈ fds.pollFds.tail, os p.fd p.events = 0#16 := by
  obtain ⟨p, hp, hf, he⟩ := hi.zero
  cases hl : fds.pollFds with
  | nil => rw [hl] at hp; cases hp
  | cons q tl =>
    rw [hl] at hp
    cases hp
    unfold round at h
    simp only [osPoll, hl, List.map_cons, List.getElem?_cons_zero, hf, he] at h
    by_cases hr : os n.readFd n.flags = 0#16
    · have hb : (os n.readFd n.flags != 0#16) = false := by simpa using hr
      simp only [hb, Bool.false_and, Bool.and_false, Bool.false_eq_true, if_false] at h
      repeat' split at h
      all_goals cases h
    · have hb : (os n.readFd n.flags != 0#16) = true := by simpa using hr
      refine ⟨hr, fun x hx => ?_⟩
      simp only [hb, List.filter_cons_of_pos, List.length_cons, if_true, Nat.add_sub_cancel, Bool.true_and, Bool.and_true] at h
      split at h
      · cases h
      split at h
      · next hc =>
        simp only [Bool.and_eq_true, beq_iff_eq, List.length_eq_zero_iff] at hc
        have := List.filter_eq_nil_iff.1 hc.2 { x with revents := os x.fd x.events } (List.mem_map.2 ⟨x, hx, rfl⟩)
        simpa using this
      · repeat' split at h
        all_goals cases h

/-- The `wait` returned the events of a look at the table as it was when `poll()` returned. -/
def pollReturned (t : Tid) (os : Fd → Flags → Flags) (tbl : Fds) (o : PObs) : Prop :=
  ∃ order b tbl' evs, order.isPerm (tbl.pollFds.tail.map PollFd.fd) = true ∧ round os order b tbl = some (tbl', .done evs) ∧
    o = .waitOk t (visible evs).length (visible evs)

/-- Where a `wait` is, from the return of `poll()` on. -/
def pollInside (os : Fd → Flags → Flags) (tbl : Fds) (s : S) : Pc → Prop
  | .wPopAll _ os' | .wSwap2 _ os' => os' = os ∧ s.tbl = tbl
  | .wUnlock _ (.ok evs) | .wFinish _ (.ok evs) => ∃ order b tbl', order.isPerm (tbl.pollFds.tail.map PollFd.fd) = true ∧
      round os order b tbl = some (tbl', .done evs)
  | _ => False

/-- How many steps a `wait` has left, at most. -/
def pollLeft (c : Cfg) (t : Tid) (s : S) : Nat :=
  match s.pc t with
  | .wPopAll _ _ => R c t s
  | .wSwap2 _ _ => 3
  | .wUnlock _ _ => 2
  | .wFinish _ _ => 1
  | _ => 0

theorem pollInside_inWait {os tbl s p} (h : pollInside os tbl s p) : inWait p = true := by
  cases p <;> first | rfl | exact h.elim

/-- The `poll(2)` poller, in every reachable state: once a registered source is ready, or the time is over with an empty channel, `poll()` can return,
and then the `wait` needs only a bounded number of steps of its own, none of which has to wait for another thread, to return what was reported. -/
theorem poll_wait_comes_back (c : Cfg) (s : S) (tr : List PObs) (h : Reach c Any s tr) (t : Tid) (timed : Bool) (hp : s.pc t = .wPoll timed)
    (os : Fd → Flags → Flags) (hch : os c.n.readFd c.n.flags ≠ 0#16 ↔ s.chan > 0)
    (hr : (∃ p ∈ s.tbl.pollFds.tail, os p.fd p.events ≠ 0#16) ∨ (timed = true ∧ s.chan = 0)) :
    WaitFree (fun s x => step c s x.1 x.2) (t, .waitPoll os) (fun x => x.1 == t) (fun _ => true) (pollReturned t os s.tbl) (2 * c.threads + 7) s := by
  have ht : t < c.threads := by
    by_cases ht : t < c.threads
    · exact ht
    · rw [(reach_I h).range t (by omega)] at hp; cases hp
  have hno : ∀ {order b tbl'}, round os order b s.tbl ≠ some (tbl', .again) := by
    intro order b tbl' hra
    obtain ⟨h1, h2⟩ := round_again_quiet (reach_T h).inv hra
    rcases hr with ⟨p, hp1, hp2⟩ | ⟨_, h3⟩
    · exact hp2 (h2 p hp1)
    · have := hch.1 h1; omega
  have hpoll : (osPoll os s.tbl.pollFds).2 > 0 ∨ timed = true := by
    rcases hr with ⟨p, hp1, hp2⟩ | ⟨h1, _⟩
    · left
      unfold osPoll
      refine List.length_pos_of_mem (a := { p with revents := os p.fd p.events }) ?_
      rw [List.mem_filter]
      exact ⟨List.mem_map.2 ⟨p, List.mem_of_mem_tail hp1, rfl⟩, by simpa using hp2⟩
    · exact .inr h1
  have h0 : step c s t (.waitPoll os) = some ({ s with pc := PollP.upd s.pc t (if s.chan > 0 then .wPopAll timed os else .wSwap2 timed os) }, .tau) := by
    unfold step; rw [if_pos ht]; simp only [hp]
    rw [if_pos ⟨by simp only [hch], hpoll⟩]
  refine waitFree_of (fun s' => (∃ tr, Reach c Any s' tr) ∧ pollInside os s.tbl s' (s'.pc t)) (pollLeft c t) ?_ ?_ ?_ ?_
  · rw [h0]; rfl
  · intro s1 o h1
    have hr1 : Reach c Any s1 (o :: tr) := .step h trivial h1
    refine .inr ⟨⟨⟨_, hr1⟩, ?_⟩, ?_⟩
    · rw [h0] at h1; cases h1
      dsimp only; rw [PollP.upd_self]; split <;> exact ⟨rfl, rfl⟩
    · have := R_bound (t := t) hr1
      unfold pollLeft
      split <;> omega
  · intro s1 x s' o hi hs
    obtain ⟨u, a⟩ := x
    obtain ⟨⟨tr1, hr1⟩, hi⟩ := hi
    have hr2 : Reach c Any s' (o :: tr1) := .step hr1 trivial hs
    obtain ⟨hu, hn⟩ := step_next hs
    dsimp only at hn hu
    by_cases e : u = t
    · subst e
      simp only [beq_self_eq_true, if_true]
      have hs0 := hs
      dsimp only at hs0
      unfold step at hs0; rw [if_pos hu] at hs0
      cases hq : s1.pc u with
      | wPopAll b os' =>
        rw [hq] at hi
        obtain ⟨rfl, htb⟩ := hi
        right
        cases a <;> simp only [hq] at hs0 <;> first | (cases hs0; done) | skip
        have hmore : (popAll c.chan s1.chan).1 = true → (popAll c.chan s1.chan).2 < s1.chan := by
          cases c.chan <;> simp [popAll]; omega
        cases hs0
        simp only [pollLeft, PollP.upd_self, hq]
        cases hm : (popAll c.chan s1.chan).1 with
        | true =>
          rw [hm] at hr2
          refine ⟨⟨⟨_, hr2⟩, rfl, htb⟩, ?_⟩
          have h1 := hmore hm
          have hu1 := cnt_upd' nPend s1.pc hu (.wPopAll b os')
          have hu2 := cnt_upd' canCall s1.pc hu (.wPopAll b os')
          simp only [hq, nPend, canCall, Bool.toNat_false] at hu1 hu2
          simp only [R, if_true, PollP.upd_self, hq]
          omega
        | false =>
          rw [hm] at hr2
          refine ⟨⟨⟨_, hr2⟩, rfl, htb⟩, ?_⟩
          simp only [R, hq, wgt, Bool.false_eq_true, if_false]
          omega
      | wSwap2 b os' =>
        rw [hq] at hi
        obtain ⟨rfl, htb⟩ := hi
        right
        cases a <;> simp only [hq] at hs0 <;> first | (cases hs0; done) | skip
        split at hs0
        · next hperm =>
          rw [htb] at hperm hs0
          split at hs0
          · cases hs0
          · next hra => exact (hno hra).elim
          · next hrd =>
            cases hs0
            simp only [pollLeft, PollP.upd_self, hq]
            exact ⟨⟨⟨_, hr2⟩, _, _, _, hperm, hrd⟩, Nat.le_refl _⟩
        · cases hs0
      | wUnlock b r =>
        rw [hq] at hi
        cases r with
        | err e => exact hi.elim
        | ok evs =>
          right
          cases a <;> simp only [hq] at hs0 <;> first | (cases hs0; done) | skip
          cases hs0
          simp only [pollLeft, PollP.upd_self, hq]
          exact ⟨⟨⟨_, hr2⟩, hi⟩, Nat.le_refl _⟩
      | wFinish b r =>
        rw [hq] at hi
        cases r with
        | err e => exact hi.elim
        | ok evs =>
          left
          cases a <;> simp only [hq] at hs0 <;> first | (cases hs0; done) | skip
          cases hs0
          obtain ⟨order, b', tbl', h1, h2⟩ := hi
          exact ⟨order, b', tbl', evs, h1, h2, rfl⟩
      | _ => rw [hq] at hi; exact hi.elim
    · right
      have hb : (u == t) = false := by simpa using e
      simp only [hb, Bool.false_eq_true, if_false, Nat.add_zero]
      have hpc : s'.pc t = s1.pc t := by
        rcases next_other hn (u := t) (fun h => e h.symm) with h1 | ⟨b, h1, _⟩
        · exact h1
        · rw [h1] at hi; exact hi.elim
      rw [hpc]
      have hw := pollInside_inWait hi
      have hI := reach_I hr1
      have held : ∀ {p}, s1.pc t = p → holds p = true → R c t s' ≤ R c t s1 ∧ s'.tbl = s1.tbl := by
        intro p h1 h2
        have hm : s1.mtx = some t := (hI.mtx t).1 (by rw [h1]; exact h2)
        refine ⟨R_other hu hn hI e hm hw, ?_⟩
        cases hn <;> first
          | rfl
          | (exact absurd (holder_unique hI (t := u) (u := t) (by simp [*, holds]) (by rw [h1]; exact h2)) e)
      cases hq : s1.pc t with
      | wPopAll b os' =>
        rw [hq] at hi
        obtain ⟨h1, h2⟩ := held hq rfl
        simp only [pollLeft, hpc, hq]
        exact ⟨⟨⟨_, hr2⟩, hi.1, by rw [h2]; exact hi.2⟩, h1⟩
      | wSwap2 b os' =>
        rw [hq] at hi
        obtain ⟨h1, h2⟩ := held hq rfl
        simp only [pollLeft, hpc, hq]
        exact ⟨⟨⟨_, hr2⟩, hi.1, by rw [h2]; exact hi.2⟩, Nat.le_refl _⟩
      | wUnlock b r =>
        rw [hq] at hi
        simp only [pollLeft, hpc, hq]
        cases r with
        | err e => exact hi.elim
        | ok evs => exact ⟨⟨⟨_, hr2⟩, hi⟩, Nat.le_refl _⟩
      | wFinish b r =>
        rw [hq] at hi
        simp only [pollLeft, hpc, hq]
        cases r with
        | err e => exact hi.elim
        | ok evs => exact ⟨⟨⟨_, hr2⟩, hi⟩, Nat.le_refl _⟩
      | _ => rw [hq] at hi; exact hi.elim
  · intro s1 hi
    obtain ⟨⟨tr1, hr1⟩, hi⟩ := hi
    have go : ∀ {p a}, s1.pc t = p → nextAct c.n s1 p = some a → (∀ op b, p ≠ .mLock op b) → (∀ b, p ≠ .wLock b) → (∀ b, p ≠ .wRelock b) →
        (∀ b, p ≠ .wPoll b) → ∃ x : Tid × Act, (x.1 == t) = true ∧ true = true ∧ (step c s1 x.1 x.2).isSome = true := by
      intro p a h1 h2 n1 n2 n3 n4
      obtain ⟨s2, o, h3⟩ := can_step hr1 ht (by rw [h1]; exact h2)
        (by rintro (⟨op, b, h⟩ | ⟨b, h⟩ | ⟨b, h⟩) <;> rw [h1] at h <;> first | exact (n1 _ _ h).elim | exact (n2 _ h).elim | exact (n3 _ h).elim)
        (by intro b h; rw [h1] at h; exact (n4 _ h).elim)
      exact ⟨(t, a), by simp, rfl, by rw [h3]; rfl⟩
    cases hq : s1.pc t with
    | wPopAll b os' =>
      refine ⟨by simp only [pollLeft, hq, R, wgt]; omega, go hq rfl (by nofun) (by nofun) (by nofun) (by nofun)⟩
    | wSwap2 b os' =>
      refine ⟨by simp only [pollLeft, hq]; omega, go hq rfl (by nofun) (by nofun) (by nofun) (by nofun)⟩
    | wUnlock b r =>
      refine ⟨by simp only [pollLeft, hq]; omega, go hq rfl (by nofun) (by nofun) (by nofun) (by nofun)⟩
    | wFinish b r =>
      refine ⟨by simp only [pollLeft, hq]; omega, go hq rfl (by nofun) (by nofun) (by nofun) (by nofun)⟩
    | _ => rw [hq] at hi; exact hi.elim

/-- `poll()` has reported source 7 and a byte of thread 1, which is in `delete`; while the channel is emptied, thread 2 notifies and writes another byte.  The
`wait` returns the event of source 7, then the source is deleted. -/
example : (runLog (fun s x => step C69.pollEx s x.1 x.2) (init C69.pollEx)
      [(1, .callBegin (.add 7 C34.exEv .oneshot)), (1, .callWrite true), (1, .callLock), (1, .callPop), (1, .callApply), (1, .callDec), (1, .callCv),
       (1, .callUnlock), (0, .waitBegin false), (0, .waitLock), (0, .waitSwap), (0, .waitLoad), (1, .callBegin (.delete 7)), (1, .callWrite true),
       (0, .waitPoll fun _ _ => IN), (2, .notifyCas), (2, .notifySwap), (0, .waitPopAll), (2, .notifyWrite true), (0, .waitPopAll), (0, .waitPopAll),
       (0, .waitSwap2 [7]), (0, .waitUnlock), (1, .callLock), (1, .callPop), (1, .callApply), (0, .waitFinish)] []).bind
      (fun r => r.2.head?.bind fun x => match x.2 with | .waitOk t n evs => some (t, n, evs.map fun e => e.key.toNat) | _ => none) =
    some (0, 1, [42]) := by decide +kernel

end Poll

end Polling.C71
