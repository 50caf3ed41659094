import Verif.Proof.PollProgress

/-!
C05 (and C39 for the poll backend): notifications on the poll backend.

The property is false of the code: `wait` can fail with `WouldBlock` because of a concurrent `notify` or registration
call, and after that notifications are lost.  Proved: the negation, with the two ways it happens, and that nothing is
lost as long as no `wait` fails with `WouldBlock`.
-/

set_option linter.unusedSimpArgs false

namespace Polling.C05
open PollP PollB PollFlags PollSpec

/-- As long as no `wait` has failed with `WouldBlock` (and writes to the channel work): if a `notify` call has returned
and no `wait` has returned since that call began, then a thread in `poll()` is about to be woken - the flag is set and a
byte is in the channel or being written by a `notify` call in progress - or another `notify` call is in progress that is
about to set the flag and write. -/
theorem poll_notification_not_lost_partial {c s tr t b} (hr : Reach c WritesWork s tr) (hno : NoSpurious tr)
    (hd : due tr = true) (hp : s.pc t = .wPoll b) :
    (s.notified = true ∧ (0 < s.chan ∨ ∃ u, s.pc u = .nWrite)) ∨ ∃ u, s.pc u = .nSwap := by
  have hK := reach_K hr hno
  have hL := reach_L hr
  have hI := reach_I hr
  rcases hK.lib (hK.due hd) with h | h | ⟨u, hu⟩
  · exact .inl ⟨h, hL.note t b (.inr hp) h⟩
  · exact .inr h
  · have : u = t := by
      refine waiter_unique hI ?_ (by rw [hp]; rfl)
      revert hu; cases s.pc u <;> simp [took, inWait]
    subst this
    rw [hp] at hu; cases hu

theorem upd_upd (pc : Nat → Pc) (t : Nat) (p q : Pc) : upd (upd pc t p) t q = upd pc t q := by
  funext u; by_cases h : u = t <;> simp [PollP.upd, h]

/-- Draining the channel: repeated reads empty it. -/
theorem popAll_run {c : Cfg} {t : Nat} {b os} (ht : t < c.threads) : ∀ n (s : S), s.chan ≤ n → s.pc t = .wPopAll b os →
    ∃ k, ∀ rest, runActs c s (List.replicate k (t, .waitPopAll) ++ rest) =
      (runActs c { s with chan := 0, pc := upd s.pc t (.wSwap2 b os) } rest).map fun q => (q.1, q.2 ++ List.replicate k .tau) := by
  intro n
  induction n with
  | zero =>
    intro s hc hp
    have h0 : (popAll c.chan s.chan).1 = false := by
      have : s.chan = 0 := by omega
      rw [this]; cases c.chan <;> rfl
    refine ⟨1, fun rest => ?_⟩
    have hs : step c s t .waitPopAll = some ({ s with chan := 0, pc := upd s.pc t (.wSwap2 b os) }, .tau) := by
      unfold step; rw [if_pos ht, hp]; simp only [h0, popAll_done h0]; rfl
    simp only [List.replicate_one, List.singleton_append, runActs, hs, Option.bind_some]
  | succ n ih =>
    intro s hc hp
    cases h0 : (popAll c.chan s.chan).1 with
    | false =>
      refine ⟨1, fun rest => ?_⟩
      have hs : step c s t .waitPopAll = some ({ s with chan := 0, pc := upd s.pc t (.wSwap2 b os) }, .tau) := by
        unfold step; rw [if_pos ht, hp]; simp only [h0, popAll_done h0]; rfl
      simp only [List.replicate_one, List.singleton_append, runActs, hs, Option.bind_some]
    | true =>
      have hlt : (popAll c.chan s.chan).2 < s.chan := by
        revert h0; cases c.chan <;> simp [popAll]; omega
      have hs : step c s t .waitPopAll =
          some ({ s with chan := (popAll c.chan s.chan).2, pc := upd s.pc t (.wPopAll b os) }, .tau) := by
        unfold step; rw [if_pos ht, hp]; simp only [h0]; rfl
      obtain ⟨k, hk⟩ := ih { s with chan := (popAll c.chan s.chan).2, pc := upd s.pc t (.wPopAll b os) } (by simp only; omega)
        (upd_self _ _ _)
      refine ⟨k + 1, fun rest => ?_⟩
      rw [List.replicate_succ, List.cons_append]
      simp only [runActs, hs, Option.bind_some, hk rest, upd_upd, Option.map_map]
      congr 1
      funext q
      simp [List.replicate_succ']

/-- A thread in `poll()` with the flag set and a byte in the channel returns `Ok` by its own steps alone, whatever else
the OS reports (with the events reported). -/
theorem poll_notified_wait_returns {c s tr t b} (hr : Reach c WritesWork s tr) (hp : s.pc t = .wPoll b)
    (hn : s.notified = true) (hc : 0 < s.chan) (os : Fd → Flags → Flags) (hos : os c.n.readFd c.n.flags ≠ 0#16) :
    ∃ acts s' obs n evs, (∀ x ∈ acts, x.1 = t) ∧ (t, Act.waitPoll os) ∈ acts ∧
      runActs c s acts = some (s', .waitOk t n evs :: obs) ∧ s'.pc t = .out := by
  have hI := reach_I hr
  have hT := reach_T hr
  have ht : t < c.threads := by
    by_cases h : t < c.threads
    · exact h
    · have := hI.range t (by omega); rw [hp] at this; cases this
  have hz := hT.inv.zero
  obtain ⟨p, hp0, hpf, hpe⟩ := hz
  have hcnt : 0 < (osPoll os s.tbl.pollFds).2 := by
    unfold osPoll
    simp only
    apply List.length_pos_of_mem (a := { p with revents := os p.fd p.events })
    rw [List.mem_filter]
    refine ⟨List.mem_map.2 ⟨p, List.mem_of_getElem? hp0, rfl⟩, ?_⟩
    simp only [hpf, hpe, bne_iff_ne]; exact hos
  have h1 : step c s t (.waitPoll os) = some ({ s with pc := upd s.pc t (.wPopAll b os) }, .tau) := by
    unfold step
    rw [if_pos ht, hp]
    simp only
    rw [if_pos ⟨by simp [hos, hc], .inl hcnt⟩, if_pos hc]
  obtain ⟨k, hk⟩ := popAll_run (b := b) (os := os) ht s.chan { s with pc := upd s.pc t (.wPopAll b os) } (Nat.le_refl _) (upd_self _ _ _)
  simp only [upd_upd] at hk
  -- the round
  have hperm : (s.tbl.pollFds.tail.map PollFd.fd).isPerm (s.tbl.pollFds.tail.map PollFd.fd) = true :=
    List.isPerm_iff.2 (List.Perm.refl _)
  have hl := lists_of_perm hT.inv hT.rel hperm
  obtain ⟨fds', _, _, h2⟩ := round_spec hT.inv hT.rel os _ (enumerates_of hT.rel hl) s.notified
  rw [if_neg (by rw [hn]; simp)] at h2
  refine ⟨(t, .waitPoll os) :: (List.replicate k (t, .waitPopAll) ++
      [(t, .waitSwap2 (s.tbl.pollFds.tail.map PollFd.fd)), (t, .waitUnlock), (t, .waitFinish)]), ?_⟩
  have h3 : step c { s with chan := 0, pc := upd s.pc t (.wSwap2 b os) } t (.waitSwap2 (s.tbl.pollFds.tail.map PollFd.fd)) =
      some ({ s with chan := 0, tbl := fds', notified := false, pc := upd s.pc t (.wUnlock b (.ok (waitEvents os (mapOf c tr) (s.tbl.pollFds.tail.map PollFd.fd)))) },
        .round t os (s.tbl.pollFds.tail.map PollFd.fd) s.notified (.events (waitEvents os (mapOf c tr) (s.tbl.pollFds.tail.map PollFd.fd)))) := by
    unfold step
    rw [if_pos ht]
    simp only [upd_self]
    rw [if_pos hperm, h2]
    simp only [upd_upd]
  have h4 : ∀ tbl mtx lib ln n ops ch pc r, step c ⟨tbl, mtx, lib, ln, n, ops, ch, upd pc t (.wUnlock b r)⟩ t .waitUnlock =
      some (⟨tbl, none, lib, ln, n, ops, ch, upd pc t (.wFinish b r)⟩, .tau) := by
    intros; unfold step; rw [if_pos ht]; simp only [upd_self, upd_upd]
  have h5 : ∀ tbl mtx lib ln n ops ch pc evs, step c ⟨tbl, mtx, lib, ln, n, ops, ch, upd pc t (.wFinish b (.ok evs))⟩ t .waitFinish =
      some (⟨tbl, mtx, none, false, n, ops, ch, upd pc t .out⟩, .waitOk t (visible evs).length (visible evs)) := by
    intros; unfold step; rw [if_pos ht]; simp only [upd_self, upd_upd]
  refine ⟨{ s with chan := 0, tbl := fds', notified := false, mtx := none, libNotified := false, lib := none, pc := upd s.pc t .out },
    [.tau, .round t os (s.tbl.pollFds.tail.map PollFd.fd) s.notified (.events (waitEvents os (mapOf c tr) (s.tbl.pollFds.tail.map PollFd.fd)))]
      ++ List.replicate k .tau ++ [.tau],
    (visible (waitEvents os (mapOf c tr) (s.tbl.pollFds.tail.map PollFd.fd))).length,
    visible (waitEvents os (mapOf c tr) (s.tbl.pollFds.tail.map PollFd.fd)), ?_, List.mem_cons_self, ?_, upd_self _ _ _⟩
  · intro x hx
    simp only [List.mem_cons, List.mem_append, List.mem_replicate, List.not_mem_nil, or_false] at hx
    rcases hx with rfl | ⟨_, rfl⟩ | rfl | rfl | rfl <;> rfl
  · simp only [runActs, h1, Option.bind_some, hk, h3, h4, h5, Option.map_some, upd_upd]
    rfl

/-! ### The failures -/

/-- A pipe, descriptors 3 and 4, two threads. -/
def two (k : Chan) : Cfg := ⟨⟨3, 4, IN⟩, k, 2⟩

def isPollFalse : Pc → Bool
  | .wPoll false => true
  | _ => false
theorem isPollFalse_iff {p : Pc} (h : isPollFalse p = true) : p = .wPoll false := by
  cases p with
  | wPoll b => cases b with
    | false => rfl
    | true => cases h
  | _ => cases h
def isOut : Pc → Bool
  | .out => true
  | _ => false
theorem isOut_iff {p : Pc} (h : isOut p = true) : p = .out := by cases p <;> simp_all [isOut]

/-- The bad run: the waiting thread sees the flag of a `notify` call before that call has written its byte. -/
def raceRun : List (Nat × Act) :=
  [(1, .notifyCas), (1, .notifySwap), (0, .waitBegin false), (0, .waitLock), (0, .waitSwap), (0, .waitPop), (0, .waitUnlock),
   (0, .waitFinish)]

/-- `wait` can fail with `WouldBlock` because of a concurrent `notify`. -/
theorem poll_wait_fails_on_notify : ∃ s tr, Reach (two .pipe) WritesWork s (.waitErr 0 .wouldBlock :: tr) ∧
    (∀ t op, PObs.callBegin t op ∉ tr) := by
  have h1 : ((runActs (two .pipe) (init (two .pipe)) raceRun).map fun r => decide (r.2.length = 8) && (match r.2 with
      | .waitErr t e :: tr => decide (t = 0) && decide (e = .wouldBlock) && tr.all fun o => match o with | .callBegin _ _ => false | _ => true
      | _ => false)) = some true := by decide +kernel
  obtain ⟨⟨s, tr⟩, h2, h3⟩ := Option.map_eq_some_iff.1 h1
  have hr := reach_run (P := WritesWork) .init raceRun s tr (by
    intro a ha; simp only [raceRun, List.mem_cons, List.not_mem_nil, or_false] at ha
    rcases ha with rfl | rfl | rfl | rfl | rfl | rfl | rfl | rfl <;> trivial) h2
  rw [List.append_nil] at hr
  cases tr with
  | nil => simp at h3
  | cons o tr =>
    cases o <;> simp at h3
    case waitErr t e =>
      obtain ⟨_, ⟨rfl, rfl⟩, h⟩ := h3
      exact ⟨s, tr, hr, fun t op hm => by simpa using h _ hm⟩

/-- The bad run goes on: the byte is written, the `notify` call returns; the next `wait` takes the byte for that of a
registration call and polls again. -/
def lostRun : List (Nat × Act) := raceRun ++
  [(1, .notifyWrite true), (1, .notifyCv), (0, .waitBegin false), (0, .waitLock), (0, .waitSwap), (0, .waitLoad),
   (0, .waitPoll fun fd _ => if fd = 3 then IN else 0), (0, .waitPopAll), (0, .waitPopAll), (0, .waitSwap2 []), (0, .waitSwap), (0, .waitLoad)]

/-- A state in which notifications are lost: thread 0 is in `poll()` without timeout, a `notify` call has returned and no
`wait` has returned `Ok` since it began, no other call is in progress; unless a registered descriptor becomes ready or
`poll()` fails, thread 0 cannot move; and no further `notify` call has any effect. -/
structure Lost (c : Cfg) (s : S) (tr : List PObs) : Prop where
  reach : Reach c WritesWork s tr
  due : due tr = true
  blocked : s.pc 0 = .wPoll false
  alone : ∀ u, u ≠ 0 → s.pc u = .out
  nothing : ∀ os, (∀ fd fl, fd ≠ c.n.readFd → os fd fl = 0#16) → step c s 0 (.waitPoll os) = none
  deaf : ∀ u s' o, step c s u .notifyCas = some (s', o) → s' = s ∧ o = .notifiedAtOnce u

theorem blocked_of_empty {c s tr} (hr : Reach c WritesWork s tr) (hp : s.pc 0 = .wPoll false) (hc : s.chan = 0)
    (os : Fd → Flags → Flags) (hq : ∀ fd fl, fd ≠ c.n.readFd → os fd fl = 0#16) : step c s 0 (.waitPoll os) = none := by
  cases h : step c s 0 (.waitPoll os) with
  | none => rfl
  | some r =>
    exfalso
    obtain ⟨s', o⟩ := r
    have hT := reach_T hr
    have hn := (step_next h).2
    cases hn
    case waitPollNote b h1 h2 h3 h4 => omega
    case waitPoll b h1 h2 h3 h4 =>
      rw [hp] at h1; cases h1
      rcases h4 with h4 | h4
      · have hperm : (s.tbl.pollFds.tail.map PollFd.fd).isPerm (s.tbl.pollFds.tail.map PollFd.fd) = true :=
          List.isPerm_iff.2 (List.Perm.refl _)
        have hl := lists_of_perm hT.inv hT.rel hperm
        rw [osPoll_count hT.inv hT.rel os _ (enumerates_of hT.rel hl), h3] at h4
        have : ((s.tbl.pollFds.tail.map PollFd.fd).filter fun fd => result os (mapOf c tr) fd != 0#16) = [] := by
          rw [List.filter_eq_nil_iff]
          intro fd hfd
          have hint : fd ≠ c.n.readFd := by
            intro e
            have h5 := (tail_mem hT.inv fd).1 hfd
            rw [hT.inv.internal fd (by simp [NotifyFds.hasFd, e])] at h5
            cases h5
          simp only [result]
          cases mapOf c tr fd with
          | none => simp
          | some r => simp [hq fd _ hint]
        rw [this] at h4
        simp at h4
      · cases h4

theorem lost_of_run {k : Chan} {acts : List (Nat × Act)} (hP : ∀ a ∈ acts, WritesWork a.2)
    (h1 : ((runActs (two k) (init (two k)) acts).map fun r => due r.2 && isPollFalse (r.1.pc 0) && isOut (r.1.pc 1) &&
      decide (r.1.chan = 0) && r.1.libNotified) = some true) : ∃ s tr, Lost (two k) s tr := by
  obtain ⟨⟨s, tr⟩, h2, h3⟩ := Option.map_eq_some_iff.1 h1
  simp only [Bool.and_eq_true, decide_eq_true_eq] at h3
  obtain ⟨⟨⟨⟨a1, a2⟩, a3⟩, a4⟩, a5⟩ := h3
  have hr := reach_run (P := WritesWork) .init acts s tr hP h2
  rw [List.append_nil] at hr
  have hI := reach_I hr
  have hb := isPollFalse_iff a2
  refine ⟨s, tr, hr, a1, hb, ?_, fun os hq => blocked_of_empty hr hb a4 os hq, ?_⟩
  · intro u hu
    by_cases h : u = 1
    · subst h; exact isOut_iff a3
    · exact hI.range u (by show 2 ≤ u; omega)
  · intro u s' o hs
    have hn := (step_next hs).2
    cases hn <;> simp_all

/-- Notifications are lost on the poll backend: after a `wait` has failed because of a concurrent `notify`, the next one
blocks although that `notify` call returned, and every later `notify` call is ignored. -/
theorem poll_notification_lost : ∃ s tr, Lost (two .pipe) s tr :=
  lost_of_run (acts := lostRun) (by
    intro a ha
    simp only [lostRun, raceRun, List.mem_cons, List.mem_append, List.not_mem_nil, or_false] at ha
    rcases ha with (rfl | rfl | rfl | rfl | rfl | rfl | rfl | rfl) | rfl | rfl | rfl | rfl | rfl | rfl | rfl | rfl | rfl | rfl | rfl | rfl
      <;> trivial) (by decide +kernel)

/-- The second way: a registration call takes the byte of the notification out of the channel while the waiting thread
sleeps for that call; `wait` then fails. -/
def stealRun : List (Nat × Act) :=
  [(1, .notifyCas), (1, .notifySwap), (1, .notifyWrite true), (1, .notifyCv),
   (1, .callBegin (.delete 9)), (1, .callWrite true), (1, .callLock), (1, .callPop), (1, .callApply), (1, .callDec), (1, .callCv), (1, .callUnlock)]

/-- The beginnings and ends of calls among the observations. -/
def brief : PObs → Option (String × Nat)
  | .notifyBegin t => some ("notify begins", t)
  | .notified t => some ("notify ends", t)
  | .callBegin t _ => some ("call begins", t)
  | .callEnd t _ => some ("call ends", t)
  | .waitBegin t => some ("wait begins", t)
  | .waitOk t _ _ => some ("wait ends", t)
  | .waitErr t .wouldBlock => some ("wait fails with WouldBlock", t)
  | .waitErr t _ => some ("wait fails", t)
  | _ => none

/-- With an eventfd whose reads do not block (with those of HermitOS see `poll_hermit_notified_wait_hangs`) already a completed `notify` followed by a completed registration call makes the
next `wait` fail: the registration call reads the whole counter.  No two calls overlap in this run. -/
theorem poll_eventfd_wait_fails_sequentially : ∃ s tr, Reach (two .eventfd) WritesWork s tr ∧ (∀ u, s.pc u = .out) ∧
    tr.reverse.filterMap brief = [("notify begins", 1), ("notify ends", 1), ("call begins", 1), ("call ends", 1),
      ("wait begins", 0), ("wait fails with WouldBlock", 0)] := by
  let acts : List (Nat × Act) := stealRun ++ [(0, .waitBegin false), (0, .waitLock), (0, .waitSwap), (0, .waitPop), (0, .waitUnlock), (0, .waitFinish)]
  have h1 : ((runActs (two .eventfd) (init (two .eventfd)) acts).map fun r => isOut (r.1.pc 0) && isOut (r.1.pc 1) &&
      decide (r.2.reverse.filterMap brief = [("notify begins", 1), ("notify ends", 1), ("call begins", 1), ("call ends", 1),
      ("wait begins", 0), ("wait fails with WouldBlock", 0)])) = some true := by decide +kernel
  obtain ⟨⟨s, tr⟩, h2, h3⟩ := Option.map_eq_some_iff.1 h1
  have hr := reach_run (P := WritesWork) .init acts s tr (by
    intro a ha; simp only [acts, stealRun, List.mem_cons, List.mem_append, List.not_mem_nil, or_false] at ha
    rcases ha with (rfl | rfl | rfl | rfl | rfl | rfl | rfl | rfl | rfl | rfl | rfl | rfl) | rfl | rfl | rfl | rfl | rfl | rfl <;> trivial) h2
  rw [List.append_nil] at hr
  simp only [Bool.and_eq_true, decide_eq_true_eq] at h3
  obtain ⟨⟨a0, a1⟩, a2⟩ := h3
  refine ⟨s, tr, hr, ?_, a2⟩
  intro u
  by_cases h0 : u = 0
  · subst h0; exact isOut_iff a0
  by_cases h : u = 1
  · subst h; exact isOut_iff a1
  · exact (reach_I hr).range u (by show 2 ≤ u; omega)

/-- The same with the pipe needs overlap: a `wait` sleeps on the condition variable for a registration call that takes
the byte of a notification which arrived in the meantime. -/
theorem poll_wait_fails_on_registration : ∃ s tr, Reach ⟨⟨3, 4, IN⟩, .pipe, 3⟩ WritesWork s tr ∧
    tr.reverse.filterMap brief = [("wait begins", 0), ("call begins", 2), ("notify begins", 1), ("notify ends", 1),
      ("call ends", 2), ("wait fails with WouldBlock", 0)] := by
  let c : Cfg := ⟨⟨3, 4, IN⟩, .pipe, 3⟩
  let acts : List (Nat × Act) :=
    [(0, .waitBegin false), (0, .waitLock), (0, .waitSwap), (0, .waitLoad), (2, .callBegin (.delete 9)), (2, .callWrite true),
     (0, .waitPoll fun fd _ => if fd = 3 then IN else 0), (0, .waitPopAll), (0, .waitPopAll), (0, .waitSwap2 []), (0, .waitSwap),
     (0, .waitLoad), (0, .waitPark), (1, .notifyCas), (1, .notifySwap), (1, .notifyWrite true), (1, .notifyCv), (2, .callLock),
     (2, .callPop), (2, .callApply), (2, .callDec), (2, .callCv), (2, .callUnlock), (0, .waitRelock), (0, .waitSwap), (0, .waitPop),
     (0, .waitUnlock), (0, .waitFinish)]
  have h1 : ((runActs c (init c) acts).map fun r => r.2.reverse.filterMap brief) = some [("wait begins", 0), ("call begins", 2),
      ("notify begins", 1), ("notify ends", 1), ("call ends", 2), ("wait fails with WouldBlock", 0)] := by decide +kernel
  obtain ⟨⟨s, tr⟩, h2, h3⟩ := Option.map_eq_some_iff.1 h1
  refine ⟨s, tr, ?_, h3⟩
  have hr := reach_run (P := WritesWork) .init acts s tr (by
    intro a ha
    have : ∀ a ∈ acts, (match a.2 with | .notifyWrite ok | .callWrite ok => ok | _ => true) = true := by
      intro a ha; simp only [acts, List.mem_cons, List.not_mem_nil, or_false] at ha
      rcases ha with rfl | rfl | rfl | rfl | rfl | rfl | rfl | rfl | rfl | rfl | rfl | rfl | rfl | rfl | rfl | rfl | rfl | rfl |
        rfl | rfl | rfl | rfl | rfl | rfl | rfl | rfl | rfl | rfl <;> rfl
    have h := this a ha
    revert h; cases a.2 <;> simp [WritesWork]) h2
  simpa using hr

/-! ### Where the failure comes from -/

/-- No registration calls. -/
def NoCalls (a : Act) : Prop := WritesWork a ∧ ∀ op, a ≠ .callBegin op

def isWrite : Pc → Bool
  | .nWrite => true
  | _ => false
def isPop : Pc → Bool
  | .wPop _ => true
  | _ => false
def drains : Pc → Bool
  | .wPopAll _ _ | .wSwap2 _ _ => true
  | _ => false
def isCall : Pc → Bool
  | .mWrite _ | .mLock _ _ | .mPop _ | .mApply _ | .mDec _ | .mCv _ | .mUnlock _ => true
  | _ => false

structure B (c : Cfg) (s : S) : Prop where
  nocall : ∀ t, isCall (s.pc t) = false
  bytes : (∃ t, drains (s.pc t) = true) ∨
    s.notified.toNat + cnt c.threads isPop s.pc ≤ s.chan + cnt c.threads isWrite s.pc

theorem isPop_le {c : Cfg} {s : S} (hI : I c s) {t} (ht : drains (s.pc t) = true) (n : Nat) : cnt n isPop s.pc = 0 := by
  rw [cnt_zero]
  intro u _
  cases hp : isPop (s.pc u) with
  | false => rfl
  | true =>
    have : u = t := by
      refine waiter_unique hI ?_ ?_
      · revert hp; cases s.pc u <;> simp [isPop, inWait]
      · revert ht; cases s.pc t <;> simp [drains, inWait]
    subst this
    revert hp ht; cases s.pc u <;> simp [isPop, drains]

theorem next_B {c : Cfg} {s s' : S} {t : Nat} {a : Act} {o : PObs} (hk : c.chan = .pipe) (ht : t < c.threads) (ha : NoCalls a)
    (hn : Next c s t a s' o) (hI : I c s) (h : B c s) : B c s' := by
  have hwk : ∀ pc u, isCall (wake pc u) = isCall (pc u) := wake_P fun _ => rfl
  have hct := h.nocall t
  have hnc : ∀ u, isCall (s'.pc u) = false := by
    intro u
    have hu := h.nocall u
    have hno := ha.2
    by_cases e : u = t
    · subst e; cases hn <;> simp_all [upd_self, isCall]
    · rcases next_other hn e with h1 | ⟨b, h1, h2⟩
      · rw [h1]; exact hu
      · rw [h2]; rfl
  refine ⟨hnc, ?_⟩
  have hw1 : ∀ pc, cnt c.threads isPop (wake pc) = cnt c.threads isPop pc := cnt_wake fun _ => rfl
  have hw2 : ∀ pc, cnt c.threads isWrite (wake pc) = cnt c.threads isWrite pc := cnt_wake fun _ => rfl
  have hu1 := fun p => cnt_upd' isPop s.pc ht p
  have hu2 := fun p => cnt_upd' isWrite s.pc ht p
  have hp1 := fun h => cnt_pos_of (P := isPop) (pc := s.pc) ht h
  have hp2 := fun h => cnt_pos_of (P := isWrite) (pc := s.pc) ht h
  have hww := ha.1
  rcases h.bytes with ⟨v, hv⟩ | hb
  · have hz := isPop_le hI hv c.threads
    by_cases e : v = t
    · subst e
      have hI0 : s.notified.toNat ≤ 1 := Bool.toNat_le _
      cases hn
      case waitPopAllMore b os hp hpo => exact .inl ⟨v, by simp only [upd_self]; rfl⟩
      case waitPopAll b os hp hpo => exact .inl ⟨v, by simp only [upd_self]; rfl⟩
      all_goals first
        | (right; simp_all [isPop, isWrite, isCall, drains]; done)
        | (exfalso; simp_all [drains, isCall]; done)
    · left
      rcases next_other hn e with h1 | ⟨b, h1, _⟩
      · exact ⟨v, by rw [h1]; exact hv⟩
      · rw [h1] at hv; cases hv
  · cases hn
    case waitPollNote b os hp _ _ _ => exact .inl ⟨t, by simp only [upd_self]; rfl⟩
    case waitPoll b os hp _ _ _ => exact .inl ⟨t, by simp only [upd_self]; rfl⟩
    case waitPopAllMore b os hp hpo => exact .inl ⟨t, by simp only [upd_self]; rfl⟩
    case waitPopAll b os hp hpo => exact .inl ⟨t, by simp only [upd_self]; rfl⟩
    case notifyAtOnce | waitBusy => exact .inr hb
    all_goals
      clear hnc hI h
      right
      simp_all [isPop, isWrite, isCall, drains, WritesWork, pop]
    all_goals try omega

theorem reach_NoCalls {c s tr} (h : Reach c NoCalls s tr) : Reach c WritesWork s tr := by
  induction h with
  | init => exact .init
  | step _ hp hs ih => exact .step ih hp.1 hs

/-- With the pipe, and without registration calls: a `wait` finds no byte to take (and fails) only while a `notify` call
of another thread is between setting its flag and writing its byte. -/
theorem poll_no_failure_partial {c s tr t b} (hk : c.chan = .pipe) (hr : Reach c NoCalls s tr) (hp : s.pc t = .wPop b)
    (hq : ∀ u, s.pc u ≠ .nWrite) : (pop c.chan s.chan).1 = true := by
  have hB : B c s := by
    clear hp hq
    induction hr with
    | init =>
      refine ⟨fun _ => rfl, .inr ?_⟩
      have h1 : cnt c.threads isPop (init c).pc = 0 := by rw [cnt_zero]; intro t _; rfl
      rw [h1]; simp [init]
    | step hr hp hs ih => exact next_B hk (step_next hs).1 hp (step_next hs).2 (reach_I hr) ih
  have hI := reach_I hr
  have ht : t < c.threads := by
    by_cases h : t < c.threads
    · exact h
    · have := hI.range t (by omega); rw [hp] at this; cases this
  have hpos := cnt_pos_of (P := isPop) (pc := s.pc) ht (by rw [hp]; rfl)
  have hw : cnt c.threads isWrite s.pc = 0 := by
    rw [cnt_zero]; intro u _
    have := hq u
    cases h : s.pc u <;> simp_all [isWrite]
  rcases hB.bytes with ⟨v, hv⟩ | hb
  · rw [isPop_le hI hv] at hpos; omega
  · rw [hk]; simp [pop]; omega

/-- A `wait` about to take the byte of an earlier `notify` call. -/
example : ∃ s tr, Reach (two .pipe) NoCalls s tr ∧ s.pc 0 = .wPop false ∧ ∀ u, s.pc u ≠ .nWrite := by
  let acts : List (Nat × Act) := [(1, .notifyCas), (1, .notifySwap), (1, .notifyWrite true), (1, .notifyCv),
    (0, .waitBegin false), (0, .waitLock), (0, .waitSwap)]
  have h1 : ((runActs (two .pipe) (init (two .pipe)) acts).map fun r => isOut (r.1.pc 1) && match r.1.pc 0 with
      | .wPop false => true | _ => false) = some true := by decide +kernel
  obtain ⟨⟨s, tr⟩, h2, h3⟩ := Option.map_eq_some_iff.1 h1
  simp only [Bool.and_eq_true] at h3
  have hr := reach_run (P := NoCalls) .init acts s tr (by
    intro a ha; simp only [acts, List.mem_cons, List.not_mem_nil, or_false] at ha
    rcases ha with rfl | rfl | rfl | rfl | rfl | rfl | rfl <;> exact ⟨by trivial, by simp⟩) h2
  rw [List.append_nil] at hr
  have h0 : s.pc 0 = .wPop false := by
    have := h3.2
    cases h : s.pc 0 with
    | wPop b => rw [h] at this; cases b <;> simp_all
    | _ => rw [h] at this; cases this
  refine ⟨s, tr, hr, h0, fun u => ?_⟩
  by_cases e0 : u = 0
  · subst e0; rw [h0]; simp
  by_cases e1 : u = 1
  · subst e1; rw [isOut_iff h3.1]; simp
  · rw [(reach_I hr).range u (by show 2 ≤ u; omega)]; simp

/-- The hypotheses of `poll_notification_not_lost_partial` and `poll_notified_wait_returns`: thread 0 is in `poll()`,
then thread 1 notifies. -/
example : ∃ s tr, Reach (two .pipe) WritesWork s tr ∧ NoSpurious tr ∧ due tr = true ∧ s.pc 0 = .wPoll false ∧
    s.notified = true ∧ 0 < s.chan := by
  let acts : List (Nat × Act) := [(0, .waitBegin false), (0, .waitLock), (0, .waitSwap), (0, .waitLoad),
    (1, .notifyCas), (1, .notifySwap), (1, .notifyWrite true), (1, .notifyCv)]
  have h1 : ((runActs (two .pipe) (init (two .pipe)) acts).map fun r => due r.2 && isPollFalse (r.1.pc 0) && r.1.notified && decide (r.1.chan > 0) &&
      r.2.all fun o => match o with | .waitErr _ _ => false | _ => true) = some true := by decide +kernel
  obtain ⟨⟨s, tr⟩, h2, h3⟩ := Option.map_eq_some_iff.1 h1
  simp only [Bool.and_eq_true, decide_eq_true_eq] at h3
  refine ⟨s, tr, ?_, ?_, h3.1.1.1.1, isPollFalse_iff h3.1.1.1.2, h3.1.1.2, h3.1.2⟩
  · have := reach_run (P := WritesWork) .init acts s tr (by
      intro a ha; simp only [acts, List.mem_cons, List.not_mem_nil, or_false] at ha
      rcases ha with rfl | rfl | rfl | rfl | rfl | rfl | rfl | rfl <;> trivial) h2
    simpa using this
  · intro t ht
    have := List.all_eq_true.1 h3.2 _ ht
    simp at this

end Polling.C05

namespace Polling.C39
open PollP

/-- On the poll backend a `wait` that failed with `WouldBlock` can leave the poller in a state in which notifications have no
effect any more. -/
theorem poll_failed_wait_disables_notify :
    ∃ s tr, C05.Lost (C05.two .pipe) s tr ∧ ∃ t, PObs.waitErr t .wouldBlock ∈ tr := by
  obtain ⟨s, tr, h⟩ := C05.poll_notification_lost
  refine ⟨s, tr, h, ?_⟩
  apply Classical.byContradiction
  intro hno
  -- without such a failure the notification would not be lost
  have hns : NoSpurious tr := fun t ht => hno ⟨t, ht⟩
  rcases C05.poll_notification_not_lost_partial h.reach hns h.due h.blocked with ⟨hn, hc | ⟨u, hu⟩⟩ | ⟨u, hu⟩
  · obtain ⟨s', o, hs⟩ := can_step h.reach (t := 0) (by decide : 0 < 2) (by rw [h.blocked]; rfl) (by
      rintro (⟨op, b, e⟩ | ⟨b, e⟩ | ⟨b, e⟩) <;> (rw [h.blocked] at e; cases e)) (fun b _ => .inr hc)
    rw [h.nothing _ (by intro fd fl hfd; simp [quietOs, hfd])] at hs
    cases hs
  all_goals
    by_cases e : u = 0
    · subst e; rw [h.blocked] at hu; cases hu
    · rw [h.alone u e] at hu; cases hu

end Polling.C39
