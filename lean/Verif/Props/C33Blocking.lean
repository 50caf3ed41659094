import Verif.Model.PollBlocking
import Verif.Props.C33Poll
import Verif.Props.C05Poll
import Verif.Props.C60

/-!
C33, C05 and C60 for the poll backend where what a registration call or a notification has written is taken with a blocking
read: the PS Vita (`Chan.pipe`, poll.rs:702-718) and HermitOS (`Chan.eventfd`, poll.rs:478-480).

C33 and C05 are false there.  On both, a registration call made while another thread is blocked in `wait` hangs, and so may a
`wait` that has been notified.  On HermitOS a read of the eventfd takes everything that has been written, so that two concurrent
registration calls hang, and so does the only thread of a program that calls `notify`, `add` and `wait` in this order.  Proved:
the hangs as witness runs that nothing but another call ends; that these blocking reads are the only way to be stuck; that
nothing is ever stuck on the Vita if registration calls and waits do not overlap, and on HermitOS if no two calls overlap and
`notify` is not called; and that what happens here also happens with the non-blocking reads of the other platforms, so that the
safety properties proved there hold here.
-/

set_option linter.unusedSimpArgs false

namespace Polling.PollBlk
open PollP PollB PollFlags PollSpec

theorem stepV_step {c s t a s' o} (h : stepV c s t a = some (s', o)) :
    blocks c s a = false ∧ step c s t a = some (s', o) := by
  unfold stepV at h
  split at h
  · cases h
  · next hb => exact ⟨by simpa using hb, h⟩

/-- Every execution with blocking reads is one of the machine with non-blocking reads. -/
theorem reach_plain {c P s tr} {Q : Act → Prop} (hPQ : ∀ s a, P s a → Q a) (h : ReachV c P s tr) :
    Reach c Q s tr := by
  induction h with
  | init => exact .init
  | step _ hp hs ih => exact .step ih (hPQ _ _ hp) (stepV_step hs).2

theorem reachV_run {c P s tr} (h : ReachV c P s tr) (acts : List (Tid × Act)) : ∀ s' obs, (∀ s, ∀ a ∈ acts, P s a.2) →
    runActsV c s acts = some (s', obs) → ReachV c P s' (obs ++ tr) := by
  induction acts generalizing s tr with
  | nil => intro s' obs _ hr; cases hr; exact h
  | cons ta acts ih =>
    intro s' obs hP hr
    obtain ⟨t, a⟩ := ta
    simp only [runActsV, Option.bind_eq_some_iff, Option.map_eq_some_iff] at hr
    obtain ⟨⟨s1, o⟩, h1, ⟨s2, obs2⟩, h2, h3⟩ := hr
    injection h3 with h3 h4
    subst h3 h4
    have := ih (.step h (hP _ _ List.mem_cons_self) h1) s2 obs2 (fun s a ha => hP s a (List.mem_cons_of_mem _ ha)) h2
    simpa using this

/-- A thread in a blocking read of the empty channel. -/
def Reading (s : S) (t : Tid) : Prop := ((∃ op, s.pc t = .mPop op) ∨ ∃ b, s.pc t = .wPop b) ∧ s.chan = 0

/-- A position outside the lock of the table from which nothing is written before a new call begins. -/
def idle : Pc → Bool
  | .out | .nCv | .mLock _ _ | .wLock _ | .wSleep _ | .wRelock _ => true
  | _ => false

/-- Thread `t` reads the empty channel, with the table locked, and nobody is about to write. -/
structure Stuck (s : S) (t : Tid) : Prop where
  reading : Reading s t
  locked : s.mtx = some t
  others : ∀ u, u ≠ t → idle (s.pc u) = true

/-- As long as no registration call begins, and no `notify` call that is not ignored, nothing changes for a stuck thread. -/
theorem stuck_step {c s t u a s' o} (hs : Stuck s t) (ha : ∀ op, a ≠ .callBegin op)
    (hn : a = .notifyCas → s.libNotified = true) (h : stepV c s u a = some (s', o)) :
    Stuck s' t ∧ s'.pc t = s.pc t ∧ s'.libNotified = s.libNotified ∧ (∀ r, o ≠ .callEnd t r) := by
  obtain ⟨hb, hst⟩ := stepV_step h
  have hnx := (step_next hst).2
  obtain ⟨⟨hr, hc⟩, hm, ho⟩ := hs
  have hw : ∀ pc v, idle (wake pc v) = idle (pc v) := wake_P fun _ => rfl
  by_cases e : u = t
  · subst e
    exfalso
    rcases hr with ⟨op, hp⟩ | ⟨b, hp⟩ <;> cases hnx <;> simp_all [blocks]
  · have hou := ho u e
    have hpt : s'.pc t = s.pc t := by
      rcases next_other hnx (Ne.symm e) with h1 | ⟨b, h1, _⟩
      · exact h1
      · rcases hr with ⟨op, hp⟩ | ⟨b, hp⟩ <;> rw [hp] at h1 <;> cases h1
    have hoth : ∀ v, v ≠ t → v ≠ u → idle (s'.pc v) = true := by
      intro v hv hvu
      rcases next_other hnx hvu with h1 | ⟨b, h1, h2⟩
      · rw [h1]; exact ho v hv
      · rw [h2]; rfl
    have key : idle (s'.pc u) = true ∧ s'.chan = 0 ∧ s'.mtx = some t ∧ s'.libNotified = s.libNotified ∧ (∀ r, o ≠ .callEnd t r) := by
      clear hoth hpt ho
      cases hnx <;> simp_all [idle, upd_self]
    refine ⟨⟨⟨?_, key.2.1⟩, key.2.2.1, fun v hv => ?_⟩, hpt, key.2.2.2.1, key.2.2.2.2⟩
    · rw [hpt]; exact hr
    · by_cases hvu : v = u
      · subst hvu; exact key.1
      · exact hoth v hv hvu

theorem stuck_run {c t} (acts : List (Tid × Act)) : ∀ {s s' obs}, Stuck s t → (∀ a ∈ acts, ∀ op, a.2 ≠ .callBegin op) →
    (∀ a ∈ acts, a.2 = .notifyCas → s.libNotified = true) → runActsV c s acts = some (s', obs) →
    Stuck s' t ∧ s'.pc t = s.pc t ∧ ∀ r, PObs.callEnd t r ∉ obs := by
  induction acts with
  | nil => intro s s' obs hs _ _ h; cases h; exact ⟨hs, rfl, by simp⟩
  | cons ta acts ih =>
    intro s s' obs hs ha hn h
    obtain ⟨u, a⟩ := ta
    simp only [runActsV, Option.bind_eq_some_iff, Option.map_eq_some_iff] at h
    obtain ⟨⟨s1, o⟩, h1, ⟨s2, obs2⟩, h2, h3⟩ := h
    injection h3 with h3 h4
    subst h3 h4
    obtain ⟨k1, k2, k3, k4⟩ := stuck_step hs (ha _ List.mem_cons_self) (hn _ List.mem_cons_self) h1
    obtain ⟨j1, j2, j3⟩ := ih k1 (fun a h => ha a (List.mem_cons_of_mem _ h))
      (fun a h e => by rw [k3]; exact hn a (List.mem_cons_of_mem _ h) e) h2
    refine ⟨j1, j2.trans k2, fun r hm => ?_⟩
    rcases List.mem_append.1 hm with hm | hm
    · exact j3 r hm
    · simp only [List.mem_singleton] at hm; exact k4 r hm.symm

/-- Where `pop_all_notifications` may block (HermitOS), it does not: there is something to read. -/
theorem next_popAll {c : Cfg} {s s' : S} {t : Nat} {a : Act} {o : PObs} (hk : c.chan ≠ .pipe) (hI : I c s) (hn : Next c s t a s' o)
    (h : ∀ u b os, s.pc u = .wPopAll b os → 0 < s.chan) : ∀ u b os, s'.pc u = .wPopAll b os → 0 < s'.chan := by
  intro u b os hu
  by_cases e : u = t
  · subst e
    have hpa : (popAll c.chan s.chan).1 = false := by revert hk; cases c.chan <;> simp [popAll]
    cases hn <;> simp_all [upd_self, wake]
    all_goals first | exact h _ _ _ ‹_› | done
  · rcases next_other hn e with h1 | ⟨b', _, h2⟩
    · have hu' : s.pc u = .wPopAll b os := by rw [← h1]; exact hu
      have hc := h u b os hu'
      have huniq : holds (s.pc t) = true → False := fun ht => e (holder_unique hI (by rw [hu']; rfl) ht)
      clear hu h1
      cases hn <;> simp_all [holds]
    · rw [h2] at hu; cases hu

theorem reach_popAll {c : Cfg} {P s tr} (hk : c.chan ≠ .pipe) (hr : ReachV c P s tr) :
    ∀ u b os, s.pc u = .wPopAll b os → 0 < s.chan := by
  induction hr with
  | init => intro u b os h; cases h
  | step hr _ hs ih =>
    exact next_popAll hk (reach_I (reach_plain (Q := Any) (fun _ _ _ => trivial) hr)) (step_next (stepV_step hs).2).2 ih

end Polling.PollBlk

namespace Polling.C33
open PollP PollB PollFlags PollSpec PollBlk

/-- On the Vita and on HermitOS: as in `poll_no_deadlock`, or a thread is in a blocking read of the empty channel.  (Missing:
that this does not happen.  It does, `poll_vita_registration_hangs`, `poll_hermit_registrations_hang`.) -/
theorem poll_blocking_no_deadlock_partial {c s tr} (hr : ReachV c Works s tr) (hex : ∃ t, s.pc t ≠ .out) :
    (∃ t a s' o, GoesOn c.n a ∧ stepV c s t a = some (s', o)) ∨
    (∃ t, s.pc t = .wPoll false ∧ (∀ u, u ≠ t → s.pc u = .out) ∧ s.chan = 0 ∧ s.notified = false) ∨
    ∃ t, Reading s t := by
  have hr' : Reach c WritesWork s tr := reach_plain (fun _ _ h => h) hr
  rcases poll_no_deadlock hr' hex with ⟨t, a, s', o, hg, hst⟩ | h
  · cases hb : blocks c s a with
    | false => exact .inl ⟨t, a, s', o, hg, by unfold stepV; rw [hb]; exact hst⟩
    | true =>
      right; right
      have hn := (step_next hst).2
      have hpa := fun (hk : c.chan ≠ .pipe) => reach_popAll hk hr t
      refine ⟨t, ?_⟩
      cases hn
      case waitPopAllMore b os h _ =>
        simp only [blocks, Bool.and_eq_true, bne_iff_ne, ne_eq, beq_iff_eq] at hb
        have := hpa hb.1 b os h; omega
      case waitPopAll b os h _ =>
        simp only [blocks, Bool.and_eq_true, bne_iff_ne, ne_eq, beq_iff_eq] at hb
        have := hpa hb.1 b os h; omega
      all_goals simp_all [blocks, Reading]
  · exact .inr (.inl h)

/-- Thread 0 waits without timeout; thread 1 begins an `add`; thread 0 is woken by its byte, reads it, and makes way. -/
def hangRun : List (Nat × Act) :=
  [(0, .waitBegin false), (0, .waitLock), (0, .waitSwap), (0, .waitLoad), (1, .callBegin (.add 9 (Event.onlyReadable 5) .oneshot)),
   (1, .callWrite true), (0, .waitPoll fun fd _ => if fd = 3 then IN else 0), (0, .waitPopAll), (0, .waitPopAll), (0, .waitSwap2 []),
   (0, .waitSwap), (0, .waitLoad), (0, .waitPark), (1, .callLock)]

def isMPop : Pc → Bool
  | .mPop _ => true
  | _ => false
theorem isMPop_iff {p : Pc} (h : isMPop p = true) : ∃ op, p = .mPop op := by cases p <;> simp_all [isMPop]

theorem stuck_of_run {c : Cfg} {n : Nat} {acts : List (Nat × Act)} {t : Nat} {Q : S → List PObs → Bool} (hn : c.threads = n)
    (hP : (acts.all fun a => match a.2 with | .notifyWrite ok | .callWrite ok => ok | _ => true) = true)
    (h1 : ((runActsV c (init c) acts).map fun r => decide (r.1.chan = 0) && decide (r.1.mtx = some t) &&
      (isMPop (r.1.pc t) || C05.isPop (r.1.pc t)) && ((List.range n).all fun u => u == t || idle (r.1.pc u)) && Q r.1 r.2) = some true) :
    ∃ s tr, ReachV c Works s tr ∧ Stuck s t ∧ Q s tr = true := by
  obtain ⟨⟨s, tr⟩, h2, h3⟩ := Option.map_eq_some_iff.1 h1
  simp only [Bool.and_eq_true, decide_eq_true_eq, List.all_eq_true, List.mem_range, Bool.or_eq_true, beq_iff_eq] at h3
  obtain ⟨⟨⟨⟨a1, a2⟩, a3⟩, a4⟩, a5⟩ := h3
  have hr : ReachV c Works s tr := by
    have := reachV_run (P := Works) .init acts s tr (by
      intro _ a ha
      have := List.all_eq_true.1 hP a ha
      revert this; unfold Works; cases a.2 <;> simp [WritesWork]) h2
    simpa using this
  refine ⟨s, tr, hr, ⟨⟨?_, a1⟩, a2, fun u hu => ?_⟩, a5⟩
  · rcases a3 with h | h
    · exact .inl (isMPop_iff h)
    · right; revert h; cases s.pc t <;> simp [C05.isPop]
  · by_cases hlt : u < n
    · rcases a4 u hlt with h | h
      · exact absurd h hu
      · exact h
    · rw [(reach_I (reach_plain (Q := Any) (fun _ _ _ => trivial) hr)).range u (by show c.threads ≤ u; omega)]; rfl

/-- On the Vita an `add` made while another thread is blocked in `wait` hangs: there is an execution after which, whatever
happens, as long as nobody makes another call of `add`, `modify`, `delete` or `notify`, it does not return. -/
theorem poll_vita_registration_hangs : ∃ s tr, ReachV (C05.two .pipe) Works s tr ∧
    tr.reverse.filterMap C05.brief = [("wait begins", 0), ("call begins", 1)] ∧
    ∀ acts s' obs, (∀ a ∈ acts, (∀ op, a.2 ≠ .callBegin op) ∧ a.2 ≠ .notifyCas) →
      runActsV (C05.two .pipe) s acts = some (s', obs) → ∀ r, PObs.callEnd 1 r ∉ obs := by
  obtain ⟨s, tr, hr, hs, hq⟩ := stuck_of_run (c := C05.two .pipe) (n := 2) (acts := hangRun) (t := 1)
    (Q := fun _ tr => decide (tr.reverse.filterMap C05.brief = [("wait begins", 0), ("call begins", 1)])) rfl rfl (by decide +kernel)
  refine ⟨s, tr, hr, of_decide_eq_true hq, fun acts s' obs ha hrun r => ?_⟩
  exact (stuck_run acts hs (fun a h => (ha a h).1) (fun a h e => absurd e (ha a h).2) hrun).2.2 r

/-- Two threads, each in an `add`: both have written when the first one reads, and takes what both have written. -/
def takeBothRun : List (Nat × Act) :=
  [(0, .callBegin (.add 8 (Event.onlyReadable 4) .oneshot)), (1, .callBegin (.add 9 (Event.onlyReadable 5) .oneshot)),
   (0, .callWrite true), (1, .callWrite true), (0, .callLock), (0, .callPop), (0, .callApply), (0, .callDec), (0, .callUnlock),
   (1, .callLock)]

/-- On HermitOS two concurrent registration calls hang, with no thread in `wait`: there is an execution after which, whatever
happens, as long as nobody makes another call of `add`, `modify`, `delete` or `notify`, the second one does not return. -/
theorem poll_hermit_registrations_hang : ∃ s tr, ReachV (C05.two .eventfd) Works s tr ∧
    tr.reverse.filterMap C05.brief = [("call begins", 0), ("call begins", 1), ("call ends", 0)] ∧
    ∀ acts s' obs, (∀ a ∈ acts, (∀ op, a.2 ≠ .callBegin op) ∧ a.2 ≠ .notifyCas) →
      runActsV (C05.two .eventfd) s acts = some (s', obs) → ∀ r, PObs.callEnd 1 r ∉ obs := by
  obtain ⟨s, tr, hr, hs, hq⟩ := stuck_of_run (c := C05.two .eventfd) (n := 2) (acts := takeBothRun) (t := 1)
    (Q := fun _ tr => decide (tr.reverse.filterMap C05.brief = [("call begins", 0), ("call begins", 1), ("call ends", 0)]))
    rfl rfl (by decide +kernel)
  refine ⟨s, tr, hr, of_decide_eq_true hq, fun acts s' obs ha hrun r => ?_⟩
  exact (stuck_run acts hs (fun a h => (ha a h).1) (fun a h e => absurd e (ha a h).2) hrun).2.2 r

/-! ### Registration calls and waits that do not overlap -/

/-- Registration calls begin only while no thread is in `wait`, and waits only while no registration call is in progress. -/
def ApartOk (s : S) (a : Act) : Prop :=
  WritesWork a ∧ match a with
    | .callBegin _ => ∀ u, inWait (s.pc u) = false
    | .waitBegin _ => ∀ u, C05.isCall (s.pc u) = false
    | _ => True

structure BV (c : Cfg) (s : S) : Prop where
  apart : ∀ t u, C05.isCall (s.pc t) = true → inWait (s.pc u) = true → False
  bytes : (∃ t, C05.drains (s.pc t) = true) ∨
    s.notified.toNat + PollP.cnt c.threads C05.isPop s.pc + PollP.cnt c.threads mPend s.pc ≤ s.chan + PollP.cnt c.threads C05.isWrite s.pc

theorem init_BV (c : Cfg) : BV c (init c) := by
  refine ⟨fun t u h => (by cases h), .inr ?_⟩
  have h1 : PollP.cnt c.threads C05.isPop (init c).pc = 0 := by rw [cnt_zero]; intro t _; rfl
  have h2 : PollP.cnt c.threads mPend (init c).pc = 0 := by rw [cnt_zero]; intro t _; rfl
  rw [h1, h2]; simp [init]

theorem drains_inWait {p : Pc} (h : C05.drains p = true) : inWait p = true := by
  revert h; cases p <;> simp [C05.drains, inWait]

theorem mPend_isCall {p : Pc} (h : mPend p = true) : C05.isCall p = true := by
  revert h; cases p <;> simp [mPend, C05.isCall]

theorem next_apart {c : Cfg} {s s' : S} {t : Nat} {a : Act} {o : PObs} (ha : ApartOk s a) (hn : Next c s t a s' o)
    (h : ∀ t u, C05.isCall (s.pc t) = true → inWait (s.pc u) = true → False) :
    ∀ t u, C05.isCall (s'.pc t) = true → inWait (s'.pc u) = true → False := by
  -- of the positions after a step, which are in a call and which in a wait
  have hcall : ∀ v, C05.isCall (s'.pc v) = true → C05.isCall (s.pc v) = true ∨ (∃ op, a = .callBegin op) := by
    intro v hv
    by_cases e : v = t
    · subst e; cases hn <;> simp_all [upd_self, C05.isCall, wake]
    · left
      rcases next_other hn e with h1 | ⟨b, h1, h2⟩
      · rw [← h1]; exact hv
      · rw [h2] at hv; cases hv
  have hwait : ∀ v, inWait (s'.pc v) = true → inWait (s.pc v) = true ∨ (∃ b, a = .waitBegin b) := by
    intro v hv
    by_cases e : v = t
    · subst e; cases hn <;> simp_all [upd_self, inWait, wake]
    · left
      rcases next_other hn e with h1 | ⟨b, h1, h2⟩
      · rw [← h1]; exact hv
      · rw [h1]; rfl
  intro v w hv hw
  rcases hcall v hv with h1 | ⟨op, rfl⟩ <;> rcases hwait w hw with h2 | ⟨b, h2⟩
  · exact h v w h1 h2
  · subst h2; have := ha.2 v; rw [h1] at this; cases this
  · have := ha.2 w; rw [h2] at this; cases this
  · cases h2

theorem next_BV {c : Cfg} {s s' : S} {t : Nat} {a : Act} {o : PObs} (hk : c.chan = .pipe) (ht : t < c.threads) (ha : ApartOk s a)
    (hb : blocks c s a = false) (hn : Next c s t a s' o) (hI : I c s) (h : BV c s) : BV c s' := by
  refine ⟨next_apart ha hn h.apart, ?_⟩
  have hw1 : ∀ pc, PollP.cnt c.threads C05.isPop (wake pc) = PollP.cnt c.threads C05.isPop pc := cnt_wake fun _ => rfl
  have hw2 : ∀ pc, PollP.cnt c.threads C05.isWrite (wake pc) = PollP.cnt c.threads C05.isWrite pc := cnt_wake fun _ => rfl
  have hw3 : ∀ pc, PollP.cnt c.threads mPend (wake pc) = PollP.cnt c.threads mPend pc := cnt_wake fun _ => rfl
  have hu1 := fun p => cnt_upd' C05.isPop s.pc ht p
  have hu2 := fun p => cnt_upd' C05.isWrite s.pc ht p
  have hu3 := fun p => cnt_upd' mPend s.pc ht p
  have hp1 := fun h => cnt_pos_of (P := C05.isPop) (pc := s.pc) ht h
  have hp2 := fun h => cnt_pos_of (P := C05.isWrite) (pc := s.pc) ht h
  have hp3 := fun h => cnt_pos_of (P := mPend) (pc := s.pc) ht h
  have hww := ha.1
  rcases h.bytes with ⟨v, hv⟩ | hbb
  · have hz := C05.isPop_le hI hv c.threads
    have hz3 : PollP.cnt c.threads mPend s.pc = 0 := by
      rw [cnt_zero]; intro u _
      cases hm : mPend (s.pc u) with
      | false => rfl
      | true => exact (h.apart u v (mPend_isCall hm) (drains_inWait hv)).elim
    by_cases e : v = t
    · subst e
      cases hn
      case waitPopAllMore b os hp hpo => exact .inl ⟨v, by simp only [upd_self]; rfl⟩
      case waitPopAll b os hp hpo => exact .inl ⟨v, by simp only [upd_self]; rfl⟩
      all_goals first
        | (right; simp_all [C05.isPop, C05.isWrite, C05.isCall, C05.drains, mPend]; done)
        | (exfalso; simp_all [C05.drains, C05.isCall]; done)
    · left
      rcases next_other hn e with h1 | ⟨b, h1, _⟩
      · exact ⟨v, by rw [h1]; exact hv⟩
      · rw [h1] at hv; cases hv
  · cases hn
    case waitPollNote b os hp _ _ _ => exact .inl ⟨t, by simp only [upd_self]; rfl⟩
    case waitPoll b os hp _ _ _ => exact .inl ⟨t, by simp only [upd_self]; rfl⟩
    case waitPopAllMore b os hp hpo => exact .inl ⟨t, by simp only [upd_self]; rfl⟩
    case waitPopAll b os hp hpo => exact .inl ⟨t, by simp only [upd_self]; rfl⟩
    case notifyAtOnce | waitBusy => exact .inr hbb
    all_goals
      clear hI h ha
      right
      simp_all [C05.isPop, C05.isWrite, C05.isCall, C05.drains, WritesWork, pop, mPend, blocks]
    all_goals try omega

/-- On the Vita, if registration calls and waits do not overlap (as in a program that uses the poller from one thread, and
`notify` from others): in every reachable state in which some call is in progress, some call can go on, except for a lone `wait`
without timeout with nothing to do. -/
theorem poll_vita_apart_no_deadlock {c s tr} (hk : c.chan = .pipe) (hr : ReachV c ApartOk s tr) (hex : ∃ t, s.pc t ≠ .out) :
    (∃ t a s' o, GoesOn c.n a ∧ stepV c s t a = some (s', o)) ∨
    (∃ t, s.pc t = .wPoll false ∧ (∀ u, u ≠ t → s.pc u = .out) ∧ s.chan = 0 ∧ s.notified = false) := by
  have hr' : Reach c WritesWork s tr := reach_plain (fun _ _ h => h.1) hr
  have hI := reach_I hr'
  have hB : BV c s := by
    clear hex hI hr'
    induction hr with
    | init => exact init_BV c
    | @step s tr t a s' o hr hp hs ih =>
      obtain ⟨h1, h2⟩ := stepV_step hs
      exact next_BV hk (step_next h2).1 hp h1 (step_next h2).2 (reach_I (reach_plain (Q := Any) (fun _ _ _ => trivial) hr)) ih
  have hw : ReachV c Works s tr := by
    clear hex hI hr' hB
    induction hr with
    | init => exact .init
    | step _ hp hs ih => exact .step ih hp.1 hs
  rcases poll_blocking_no_deadlock_partial hw hex with h | h | ⟨t, hrd, hc⟩
  · exact .inl h
  · exact .inr h
  · left
    have hlt : t < c.threads := by
      by_cases h : t < c.threads
      · exact h
      · have := hI.range t (by omega)
        rcases hrd with ⟨op, h⟩ | ⟨b, h⟩ <;> rw [this] at h <;> cases h
    have hholds : holds (s.pc t) = true := by rcases hrd with ⟨op, h⟩ | ⟨b, h⟩ <;> rw [h] <;> rfl
    rcases hB.bytes with ⟨v, hv⟩ | hb
    · have : v = t := holder_unique hI (by revert hv; cases s.pc v <;> simp [C05.drains, holds]) hholds
      subst this
      rcases hrd with ⟨op, h⟩ | ⟨b, h⟩ <;> rw [h] at hv <;> cases hv
    · have hpos : 0 < PollP.cnt c.threads C05.isWrite s.pc := by
        rcases hrd with ⟨op, h⟩ | ⟨b, h⟩
        · have := cnt_pos_of (P := mPend) (pc := s.pc) hlt (by rw [h]; rfl); omega
        · have := cnt_pos_of (P := C05.isPop) (pc := s.pc) hlt (by rw [h]; rfl); omega
      obtain ⟨u, hu1, hu2⟩ := PollP.cnt_pos.1 hpos
      have hu : s.pc u = .nWrite := by revert hu2; cases s.pc u <;> simp [C05.isWrite]
      refine ⟨u, .notifyWrite true, { s with chan := s.chan + 1, pc := upd s.pc u .nCv }, .tau, rfl, ?_⟩
      unfold stepV step
      rw [if_neg (by simp [blocks]), if_pos hu1, hu]
      rfl

/-- A step and the state before it are as `ApartOk` says (checked for the threads there are). -/
def apartB (n : Nat) (s : S) (a : Act) : Bool :=
  match a with
  | .notifyWrite ok | .callWrite ok => ok
  | .callBegin _ => (List.range n).all fun u => !inWait (s.pc u)
  | .waitBegin _ => (List.range n).all fun u => !C05.isCall (s.pc u)
  | _ => true

/-- Registration calls and waits begin only while no call is in progress, and `notify` is not called. -/
def AloneOk (s : S) (a : Act) : Prop :=
  WritesWork a ∧ match a with
    | .callBegin _ | .waitBegin _ => ∀ u, s.pc u = .out
    | .notifyCas => False
    | _ => True

def isOut : Pc → Bool
  | .out => true
  | _ => false
theorem isOut_iff {p : Pc} (h : isOut p = true) : p = .out := by cases p <;> simp_all [isOut]

/-- The same for `AloneOk`. -/
def aloneB (n : Nat) (s : S) (a : Act) : Bool :=
  match a with
  | .notifyWrite ok | .callWrite ok => ok
  | .callBegin _ | .waitBegin _ => (List.range n).all fun u => isOut (s.pc u)
  | .notifyCas => false
  | _ => true

def apartRun (chk : Nat → S → Act → Bool) (c : Cfg) (s : S) : List (Nat × Act) → Bool
  | [] => true
  | (t, a) :: as => chk c.threads s a && match stepV c s t a with | none => true | some r => apartRun chk c r.1 as

theorem reach_apart {P : S → Act → Prop} {chk : Nat → S → Act → Bool} {c : Cfg}
    (hchk : ∀ {s a}, (∀ u, c.threads ≤ u → s.pc u = .out) → chk c.threads s a = true → P s a) (acts : List (Nat × Act)) :
    ∀ {s tr s' obs}, ReachV c P s tr → apartRun chk c s acts = true →
    runActsV c s acts = some (s', obs) → ReachV c P s' (obs ++ tr) := by
  induction acts with
  | nil => intro s tr s' obs h _ hr; cases hr; exact h
  | cons ta acts ih =>
    intro s tr s' obs h hok hr
    obtain ⟨t, a⟩ := ta
    simp only [runActsV, Option.bind_eq_some_iff, Option.map_eq_some_iff] at hr
    obtain ⟨⟨s1, o⟩, h1, ⟨s2, obs2⟩, h2, h3⟩ := hr
    injection h3 with h3 h4
    subst h3 h4
    simp only [apartRun, h1, Bool.and_eq_true] at hok
    have hI := reach_I (reach_plain (Q := Any) (fun _ _ _ => trivial) h)
    have := ih (.step h (hchk hI.range hok.1) h1) hok.2 h2
    simpa using this

theorem apart_of {n : Nat} {s : S} {a : Act} (hout : ∀ u, n ≤ u → s.pc u = .out) (h5 : apartB n s a = true) : ApartOk s a := by
  cases a <;> simp [apartB, ApartOk, WritesWork] at h5 ⊢ <;> try exact h5
  all_goals
    intro u
    by_cases hu : u < n
    · exact h5 u hu
    · rw [hout u (by omega)]; rfl

theorem alone_of {n : Nat} {s : S} {a : Act} (hout : ∀ u, n ≤ u → s.pc u = .out) (h5 : aloneB n s a = true) : AloneOk s a := by
  cases a <;> simp [aloneB, AloneOk, WritesWork] at h5 ⊢ <;> try exact h5
  all_goals
    intro u
    by_cases hu : u < n
    · exact isOut_iff (h5 u hu)
    · exact hout u (by omega)

/-- A registration, then a notification by another thread, then a wait about to take it. -/
example : ∃ s tr, ReachV (C05.two .pipe) ApartOk s tr ∧ s.pc 0 = .wPop false ∧ s.chan = 1 := by
  let acts : List (Nat × Act) := [(0, .callBegin (.add 9 (Event.onlyReadable 5) .oneshot)), (0, .callWrite true), (0, .callLock), (0, .callPop),
    (0, .callApply), (0, .callDec), (0, .callCv), (0, .callUnlock), (1, .notifyCas), (1, .notifySwap), (1, .notifyWrite true), (1, .notifyCv),
    (0, .waitBegin false), (0, .waitLock), (0, .waitSwap)]
  have h0 : apartRun apartB (C05.two .pipe) (init (C05.two .pipe)) acts = true := by decide +kernel
  have h1 : ((runActsV (C05.two .pipe) (init (C05.two .pipe)) acts).map fun r => decide (r.1.chan = 1) && match r.1.pc 0 with
      | .wPop false => true | _ => false) = some true := by decide +kernel
  obtain ⟨⟨s, tr⟩, h2, h3⟩ := Option.map_eq_some_iff.1 h1
  simp only [Bool.and_eq_true, decide_eq_true_eq] at h3
  refine ⟨s, tr, by simpa using reach_apart (fun h1 h2 => apart_of h1 h2) acts .init h0 h2, ?_, h3.1⟩
  have := h3.2
  revert this; cases h : s.pc 0 with
  | wPop b => cases b <;> simp
  | _ => simp

/-! ### HermitOS: one call at a time, and no notifications -/

/-- The positions of a thread that does not notify, with no notification to take. -/
def quiet : Pc → Bool
  | .nSwap | .nWrite | .nCv | .wPop _ => false
  | _ => true

structure BH (s : S) : Prop where
  excl : ∀ t u, s.pc t ≠ .out → s.pc u ≠ .out → t = u
  unnot : s.notified = false
  quiet : ∀ t, quiet (s.pc t) = true
  pend : ∀ t, mPend (s.pc t) = true → 0 < s.chan

theorem next_BH {c : Cfg} {s s' : S} {t : Nat} {a : Act} {o : PObs} (ha : AloneOk s a) (hn : Next c s t a s' o)
    (h : BH s) : BH s' := by
  by_cases hss : s' = s
  · rw [hss]; exact h
  -- all the others are outside
  have hout : ∀ u, u ≠ t → s.pc u = .out := by
    intro u hu
    by_cases ht : s.pc t = .out
    · cases hn <;> simp_all [AloneOk]
    · by_cases hu' : s.pc u = .out
      · exact hu'
      · exact absurd (h.excl u t hu' ht) hu
  have hout' : ∀ u, u ≠ t → s'.pc u = .out := by
    intro u hu
    rcases next_other hn hu with h1 | ⟨b, h1, _⟩
    · rw [h1]; exact hout u hu
    · rw [hout u hu] at h1; cases h1
  have key : s'.notified = false ∧ C33.quiet (s'.pc t) = true ∧ (mPend (s'.pc t) = true → 0 < s'.chan) := by
    have hq := h.quiet t
    have hp := h.pend t
    have hu := h.unnot
    clear hout hout'
    obtain ⟨_, ha2⟩ := ha
    cases hn <;> simp_all [C33.quiet, mPend, upd_self, wake, WritesWork]
  refine ⟨fun u v hu hv => ?_, key.1, fun u => ?_, fun u hu => ?_⟩
  · have h1 : u = t := Classical.byContradiction fun e => hu (hout' u e)
    have h2 : v = t := Classical.byContradiction fun e => hv (hout' v e)
    rw [h1, h2]
  · by_cases e : u = t
    · rw [e]; exact key.2.1
    · rw [hout' u e]; rfl
  · by_cases e : u = t
    · rw [e] at hu; exact key.2.2 hu
    · rw [hout' u e] at hu; cases hu

/-- On HermitOS, if no two calls overlap and `notify` is not called: in every reachable state in which some call is in progress,
some call can go on, except for a lone `wait` without timeout with nothing to do. -/
theorem poll_hermit_alone_no_deadlock {c s tr} (hr : ReachV c AloneOk s tr) (hex : ∃ t, s.pc t ≠ .out) :
    (∃ t a s' o, GoesOn c.n a ∧ stepV c s t a = some (s', o)) ∨
    (∃ t, s.pc t = .wPoll false ∧ (∀ u, u ≠ t → s.pc u = .out) ∧ s.chan = 0 ∧ s.notified = false) := by
  have hB : BH s := by
    clear hex
    induction hr with
    | init => exact ⟨fun t u h => absurd rfl h, rfl, fun _ => rfl, fun t h => by cases h⟩
    | step _ hp hs ih => exact next_BH hp (step_next (stepV_step hs).2).2 ih
  have hw : ReachV c Works s tr := by
    clear hex hB
    induction hr with
    | init => exact .init
    | step _ hp hs ih => exact .step ih hp.1 hs
  rcases poll_blocking_no_deadlock_partial hw hex with h | h | ⟨t, hrd, hc⟩
  · exact .inl h
  · exact .inr h
  · exfalso
    rcases hrd with ⟨op, h⟩ | ⟨b, h⟩
    · have := hB.pend t (by rw [h]; rfl); omega
    · have := hB.quiet t; rw [h] at this; cases this

/-- One thread registers a source, then waits: `AloneOk` holds of every step, and the wait is in `poll()`. -/
example : ∃ s tr, ReachV (C05.two .eventfd) AloneOk s tr ∧ s.pc 0 = .wPoll true ∧ s.tbl.pollFds.length = 2 := by
  let acts : List (Nat × Act) := [(0, .callBegin (.add 9 (Event.onlyReadable 5) .oneshot)), (0, .callWrite true), (0, .callLock), (0, .callPop),
    (0, .callApply), (0, .callDec), (0, .callCv), (0, .callUnlock), (0, .waitBegin true), (0, .waitLock), (0, .waitSwap), (0, .waitLoad)]
  have h0 : apartRun aloneB (C05.two .eventfd) (init (C05.two .eventfd)) acts = true := by decide +kernel
  have h1 : ((runActsV (C05.two .eventfd) (init (C05.two .eventfd)) acts).map fun r => decide (r.1.tbl.pollFds.length = 2) && match r.1.pc 0 with
      | .wPoll true => true | _ => false) = some true := by decide +kernel
  obtain ⟨⟨s, tr⟩, h2, h3⟩ := Option.map_eq_some_iff.1 h1
  simp only [Bool.and_eq_true, decide_eq_true_eq] at h3
  refine ⟨s, tr, by simpa using reach_apart (fun h1 h2 => alone_of h1 h2) acts .init h0 h2, ?_, h3.1⟩
  have := h3.2
  revert this; cases h : s.pc 0 with
  | wPoll b => cases b <;> simp
  | _ => simp

end Polling.C33

namespace Polling.C05
open PollP PollB PollFlags PollSpec PollBlk

/-- `poll()` itself does not fail with `WouldBlock` (it is not one of its errors). -/
def PollOk (_ : S) (a : Act) : Prop := WritesWork a ∧ a ≠ .waitPollFail .wouldBlock

theorem blocking_no_spurious {c s tr} (hr : ReachV c PollOk s tr) :
    NoSpurious tr ∧ ∀ t b, s.pc t ≠ .wUnlock b (.err .wouldBlock) ∧ s.pc t ≠ .wFinish b (.err .wouldBlock) := by
  induction hr with
  | init => exact ⟨fun t h => (by cases h), fun t b => ⟨by simp [init], by simp [init]⟩⟩
  | @step s tr t a s' o hr hp hs ih =>
    obtain ⟨ih1, ih2⟩ := ih
    obtain ⟨h1, h2⟩ := stepV_step hs
    have hn := (step_next h2).2
    have hp2 := hp.2
    refine ⟨?_, ?_⟩
    · intro u hm
      rcases List.mem_cons.1 hm with e | hm
      · subst e
        cases hn
        next b h he => exact (ih2 t b).2 h
      · exact ih1 u hm
    · intro u b
      by_cases e : u = t
      · subst e
        have := ih2 u b
        have hpop : s.chan ≠ 0 → (pop c.chan s.chan).1 = true := by
          intro h; cases c.chan <;> simp [pop] <;> omega
        cases hn <;> simp_all [upd_self, wake, blocks]
      · rcases next_other hn e with h | ⟨b', h, h'⟩
        · rw [h]; exact ih2 u b
        · rw [h']; exact ⟨by simp, by simp⟩

/-- On the Vita and on HermitOS no `wait` fails with `WouldBlock` because of a concurrent call. -/
theorem poll_blocking_no_failure {c s tr t} (hr : ReachV c PollOk s tr) : PObs.waitErr t .wouldBlock ∉ tr :=
  (blocking_no_spurious hr).1 t

/-- On the Vita and on HermitOS, if a `notify` call has returned and no `wait` has returned since that call began, a thread in `poll()` is about to
be woken.  (Missing: that the `wait` then returns.  It may not, `poll_vita_notified_wait_hangs`.) -/
theorem poll_blocking_notification_not_lost_partial {c s tr t b} (hr : ReachV c PollOk s tr) (hd : due tr = true)
    (hp : s.pc t = .wPoll b) : (s.notified = true ∧ (0 < s.chan ∨ ∃ u, s.pc u = .nWrite)) ∨ ∃ u, s.pc u = .nSwap :=
  poll_notification_not_lost_partial (reach_plain (fun _ _ h => h.1) hr) (blocking_no_spurious hr).1 hd hp

/-- Thread 0 is in `poll()`, then thread 1 notifies. -/
example : ∃ s tr, ReachV (two .pipe) PollOk s tr ∧ due tr = true ∧ s.pc 0 = .wPoll false ∧ 0 < s.chan := by
  let acts : List (Nat × Act) := [(0, .waitBegin false), (0, .waitLock), (0, .waitSwap), (0, .waitLoad),
    (1, .notifyCas), (1, .notifySwap), (1, .notifyWrite true), (1, .notifyCv)]
  have h1 : ((runActsV (two .pipe) (init (two .pipe)) acts).map fun r => due r.2 && isPollFalse (r.1.pc 0) &&
      decide (0 < r.1.chan)) = some true := by decide +kernel
  obtain ⟨⟨s, tr⟩, h2, h3⟩ := Option.map_eq_some_iff.1 h1
  simp only [Bool.and_eq_true, decide_eq_true_eq] at h3
  refine ⟨s, tr, ?_, h3.1.1, isPollFalse_iff h3.1.2, h3.2⟩
  have := reachV_run (P := PollOk) .init acts s tr (by
    intro _ a ha; simp only [acts, List.mem_cons, List.not_mem_nil, or_false] at ha
    rcases ha with rfl | rfl | rfl | rfl | rfl | rfl | rfl | rfl <;> exact ⟨by trivial, by simp⟩) h2
  simpa using this

/-- A registration call takes the byte of a notification, in place of its own that the waiting thread has read. -/
def robRun : List (Nat × Act) :=
  [(0, .waitBegin false), (0, .waitLock), (0, .waitSwap), (0, .waitLoad), (2, .callBegin (.delete 9)), (2, .callWrite true),
   (0, .waitPoll fun fd _ => if fd = 3 then IN else 0), (0, .waitPopAll), (0, .waitPopAll), (0, .waitSwap2 []), (0, .waitSwap),
   (0, .waitLoad), (0, .waitPark), (1, .notifyCas), (1, .notifySwap), (1, .notifyWrite true), (1, .notifyCv), (2, .callLock),
   (2, .callPop), (2, .callApply), (2, .callDec), (2, .callCv), (2, .callUnlock), (0, .waitRelock), (0, .waitSwap)]

/-- On the Vita a `wait` may hang although it was notified: there is an execution after which, whatever happens and however often
`notify` is called, as long as nobody makes another registration call, the `wait` does not return. -/
theorem poll_vita_notified_wait_hangs : ∃ s tr, ReachV ⟨⟨3, 4, IN⟩, .pipe, 3⟩ Works s tr ∧ due tr = true ∧
    tr.reverse.filterMap brief = [("wait begins", 0), ("call begins", 2), ("notify begins", 1), ("notify ends", 1), ("call ends", 2)] ∧
    ∀ acts s' obs, (∀ a ∈ acts, ∀ op, a.2 ≠ .callBegin op) → runActsV ⟨⟨3, 4, IN⟩, .pipe, 3⟩ s acts = some (s', obs) →
      s'.pc 0 = .wPop false := by
  obtain ⟨s, tr, hr, hs, hq⟩ := C33.stuck_of_run (c := ⟨⟨3, 4, IN⟩, .pipe, 3⟩) (n := 3) (acts := robRun) (t := 0)
    (Q := fun s tr => due tr && s.libNotified && (match s.pc 0 with | .wPop false => true | _ => false) &&
      decide (tr.reverse.filterMap brief = [("wait begins", 0), ("call begins", 2), ("notify begins", 1), ("notify ends", 1), ("call ends", 2)]))
    rfl rfl (by decide +kernel)
  simp only [Bool.and_eq_true, decide_eq_true_eq] at hq
  obtain ⟨⟨⟨q1, q2⟩, q3⟩, q4⟩ := hq
  refine ⟨s, tr, hr, q1, q4, fun acts s' obs ha hrun => ?_⟩
  rw [(stuck_run acts hs ha (fun _ _ _ => q2) hrun).2.1]
  revert q3; cases h : s.pc 0 with
  | wPop b => cases b <;> simp
  | _ => simp

/-- One thread: `notify`, then `add`, whose read takes the notification too, then `wait`. -/
def soloRun : List (Nat × Act) :=
  [(0, .notifyCas), (0, .notifySwap), (0, .notifyWrite true), (0, .notifyCv),
   (0, .callBegin (.add 9 (Event.onlyReadable 5) .oneshot)), (0, .callWrite true), (0, .callLock), (0, .callPop), (0, .callApply), (0, .callDec),
   (0, .callCv), (0, .callUnlock), (0, .waitBegin true), (0, .waitLock), (0, .waitSwap)]

/-- On HermitOS a program with one thread that calls `notify`, `add` and `wait`, this one with a timeout, hangs: whatever happens
and however often another thread calls `notify`, as long as nobody makes another registration call, the `wait` does not return. -/
theorem poll_hermit_notified_wait_hangs : ∃ s tr, ReachV (two .eventfd) Works s tr ∧ due tr = true ∧
    tr.reverse.filterMap brief = [("notify begins", 0), ("notify ends", 0), ("call begins", 0), ("call ends", 0), ("wait begins", 0)] ∧
    ∀ acts s' obs, (∀ a ∈ acts, ∀ op, a.2 ≠ .callBegin op) → runActsV (two .eventfd) s acts = some (s', obs) →
      s'.pc 0 = .wPop true := by
  obtain ⟨s, tr, hr, hs, hq⟩ := C33.stuck_of_run (c := two .eventfd) (n := 2) (acts := soloRun) (t := 0)
    (Q := fun s tr => due tr && s.libNotified && (match s.pc 0 with | .wPop true => true | _ => false) &&
      decide (tr.reverse.filterMap brief = [("notify begins", 0), ("notify ends", 0), ("call begins", 0), ("call ends", 0), ("wait begins", 0)]))
    rfl rfl (by decide +kernel)
  simp only [Bool.and_eq_true, decide_eq_true_eq] at hq
  obtain ⟨⟨⟨q1, q2⟩, q3⟩, q4⟩ := hq
  refine ⟨s, tr, hr, q1, q4, fun acts s' obs ha hrun => ?_⟩
  rw [(stuck_run acts hs ha (fun _ _ _ => q2) hrun).2.1]
  revert q3; cases h : s.pc 0 with
  | wPop b => cases b <;> simp
  | _ => simp

end Polling.C05

namespace Polling.C60
open PollP PollB PollSpec PollBlk Lin

/-- On the Vita and on HermitOS the results of the registration calls are linearizable too. -/
theorem poll_blocking_linearizable {c : PollP.Cfg} {P s tr} (h : ReachV c P s tr) :
    ∃ st, Atomic {} st (ofPObs tr) ∧
      ∀ fd, st.present fd = (mapAfter applyAsCoded c.n.spec (fun _ => none) (steps tr) fd).isSome :=
  poll_linearizable (reach_plain (Q := Any) (fun _ _ _ => trivial) h)

end Polling.C60
