import Verif.Model.Nested
import Verif.Proof.HandRun
import Verif.Proof.HandKq
import Verif.Props.C58Kq

/-!
C68 (kqueue): a poller can be watched by another event loop.  `Indicates` leaves it open how exactly the kernel looks at the queue of
active filters.
-/

namespace Polling.C68
open Spec KqM Kqueue KqSpec

theorem kq_pollIn_hot (c : KqM.Cfg) (k : KqM.Kern) : KqM.pollIn c k = k.queue.any (KqM.hot c (KqM.ready c k) k.knotes) := by
  unfold KqM.pollIn
  congr 1
  funext f
  unfold KqM.hot
  cases k.knotes f <;> rfl

theorem kq_harvest_nil {c : KqM.Cfg} {P s tr} (h : KqM.Reach c P s tr) {cap : Nat} (hcap : cap > 0) :
    (KqM.harvest c s.k cap).1 = [] ↔ KqM.pollIn c s.k = false := by
  rw [kq_pollIn_hot]
  rcases hh : KqM.harvest c s.k cap with ⟨evs, k'⟩
  obtain ⟨pre, rest, h1, _, h3, hb⟩ := KqM.harvest_batch (KqM.reach_ki h).nodup hh
  show evs = [] ↔ _
  rw [hb.evs, List.map_eq_nil_iff]
  constructor
  · intro he
    rw [he] at h3
    rcases h3 with h3 | h3
    · subst h3
      rw [h1, List.append_nil]
      rw [List.any_eq_false]
      intro f hf
      exact List.filter_eq_nil_iff.1 he f hf
    · simp at h3; omega
  · intro he
    rw [List.any_eq_false] at he
    rw [List.filter_eq_nil_iff]
    intro f hf
    exact he f (by rw [h1]; exact List.mem_append_left _ hf)

/-- A `wait` gets into `kevent`. -/
theorem kq_enters {c : KqM.Cfg} {s : KqM.S} {t : Tid} (ht : t < c.threads) (hl : s.lib = none) (ho : s.pc t = .out) (timed : Bool) {cap : Nat}
    (hcap : cap > 0) : KqM.step c s t (.wait timed cap) = some ({ s with lib := some t, pc := KqM.upd s.pc t (.wKev timed cap) }, .waitBegin t) := by
  unfold KqM.step
  rw [if_neg (by omega)]
  simp only [ho]
  rw [if_neg (by rw [hl]; simp), if_neg (by omega)]

/-- The descriptor is not readable: a `wait` without a timeout would sleep, and a `wait` whose time is over returns with nothing. -/
theorem kqueue_silent (c : KqM.Cfg) (P) (s : KqM.S) (tr : List KObs) (h : KqM.Reach c P s tr) (hi : KqM.Indicates c s.k false)
    (t : Tid) (ht : t < c.threads) (hl : s.lib = none) (ho : s.pc t = .out) (cap : Nat) (hcap : cap > 0) :
    (∃ s1, KqM.step c s t (.wait false cap) = some (s1, .waitBegin t) ∧ KqM.step c s1 t .kevent = none) ∧
    ∃ s1 s2, KqM.step c s t (.wait true cap) = some (s1, .waitBegin t) ∧ KqM.step c s1 t .kevent = some (s2, .deliver t []) ∧
      (s2.pc t = .wFin [] ∨ s2.pc t = .wClear true cap []) := by
  have hnil := (kq_harvest_nil h hcap).2 (hi.1 rfl)
  have hge : ¬ t ≥ c.threads := by omega
  refine ⟨⟨_, kq_enters ht hl ho false hcap, ?_⟩, _, ?_, kq_enters ht hl ho true hcap, ?_⟩
  · unfold KqM.step
    rw [if_neg hge]
    simp only [KqM.upd_self]
    rw [if_neg (by simp [hnil])]
  · exact { s with lib := some t, k := (KqM.harvest c s.k cap).2, pc := KqM.upd (KqM.upd s.pc t (.wKev true cap)) t (if c.user then .wFin [] else .wClear true cap []) }
  · constructor
    · unfold KqM.step
      rw [if_neg hge]
      simp only [KqM.upd_self]
      rw [if_pos (by simp), hnil]
      rfl
    · dsimp only
      rw [KqM.upd_self]
      cases c.user
      · exact .inr rfl
      · exact .inl rfl

/-- A filter is active and has something to report: whatever its timeout, a `wait` gets out of `kevent` at once, and with events; without
any only if more `notify` calls were begun than `wait`s without a timeout came back with nothing.  (Provided that the kernel leaves
`EV_CLEAR` on the user filter, reading from the own socket does not fail, and the extension is not used with the reserved key, see
`C67.kqueue_empty_hands_more`.)  Missing for the full property: these cases; and a kernel that indicates more than that,
see `kqueue_alarm_false`. -/
theorem kqueue_alarm_partial (c : KqM.Cfg) (hok : c.Ok) (hkc : C06.KeepsClear c) (P : Tid × KqM.Act → Prop) (hP : ∀ a, P a → KqM.Proper a)
    (s : KqM.S) (l : List ((Tid × KqM.Act) × KObs))
    (h : Runs (fun s => ∃ cond, s = KqM.init c cond) (fun s (a : Tid × KqM.Act) => KqM.step c s a.1 a.2) P s l) (hp : KqM.pollIn c s.k = true)
    (t : Tid) (ht : t < c.threads) (hl : s.lib = none) (ho : s.pc t = .out) (timed : Bool) (cap : Nat) (hcap : cap > 0) :
    ∃ s1 s2 evs, KqM.step c s t (.wait timed cap) = some (s1, .waitBegin t) ∧ KqM.step c s1 t .kevent = some (s2, .deliver t evs) ∧
      (evs = [] → emptyBacks (l.filterMap KqM.handOf) < notifies (l.filterMap KqM.handOf)) := by
  have hr := KqM.runs_reach h
  have hge : ¬ t ≥ c.threads := by omega
  have hne : (KqM.harvest c s.k cap).1 ≠ [] := by
    intro he
    rw [(kq_harvest_nil hr hcap).1 he] at hp
    cases hp
  have hs1 := kq_enters ht hl ho timed hcap
  have hs2 : KqM.step c { s with lib := some t, pc := KqM.upd s.pc t (.wKev timed cap) } t .kevent = some
      ({ s with lib := some t, k := (KqM.harvest c s.k cap).2, pc := KqM.upd (KqM.upd s.pc t (.wKev timed cap)) t (if c.user then .wFin (KqM.harvest c s.k cap).1 else .wClear timed cap (KqM.harvest c s.k cap).1) },
        .deliver t ((KqM.harvest c s.k cap).1.filter fun e => !c.internal e.filter)) := by
    unfold KqM.step
    rw [if_neg hge]
    simp only [KqM.upd_self]
    rw [if_pos (.inl hne)]
  refine ⟨_, _, _, hs1, hs2, ?_⟩
  intro he
  have hpay := (KqM.reach_hand hok hkc hP h).pay
  -- the notifier is active
  have hdue : KqM.due c s.k (cnt c.threads KqM.clr s.pc) = 1 := by
    rcases hh : KqM.harvest c s.k cap with ⟨all, k'⟩
    rw [hh] at he hne
    obtain ⟨_, _, _, _, _, hb⟩ := KqM.harvest_batch (KqM.reach_ki hr).nodup hh
    generalize (List.filter _ _) = took at hb
    cases took with
    | nil => exact absurd (by rw [hb.evs]; rfl) hne
    | cons f rest =>
      have hq := hb.queued f (by simp)
      have hm : KqM.eventOf (KqM.ready c s.k) s.k.knotes f ∈ all := by rw [hb.evs]; simp
      have hint : c.internal f = true := by
        have := List.filter_eq_nil_iff.1 he _ hm
        simpa [KqM.eventOf] using this
      unfold KqM.due
      cases hu : c.user with
      | true =>
        have e : f = .user 0 := by simpa [KqM.Cfg.internal, hu] using hint
        rw [e] at hq
        rw [if_pos rfl, if_pos hq.1]
      | false =>
        have hpk := KqM.reach_pairKnote hok hu hr
        have e : f = .read c.notifFd := by
          have : f = .read c.notifFd ∨ f = .write c.notifFd := by simpa [KqM.Cfg.internal, hu] using hint
          rcases this with e | e
          · exact e
          · have := hq.2
            rw [e] at this
            simp [KqM.hot, hpk.2] at this
        rw [e] at hq
        rw [if_neg (by simp), if_pos (.inl hq.1)]
  omega

/-- A descriptor for which the program waits is readable (or writable) as it asked: the poller's descriptor is readable.  Missing for the
full property: as in `C58.kqueue_live_partial`. -/
theorem kqueue_tells_events_partial (c : KqM.Cfg) (hok : c.Ok) (s : KqM.S) (tr : List KObs) (h : KqM.Reach c KqM.Calm s tr)
    (t : Tid) (ht : t < c.threads) (hl : s.lib = none) (ho : s.pc t = .out)
    (fd : Fd) (key : Key) (r w : Bool) (mode : PollMode)
    (hask : Live.Asked (tr.flatMap Live.ofKObs) fd key r w mode) (f : Filter) (hf : f = .read fd ∧ r = true ∨ f = .write fd ∧ w = true)
    (hready : (s.k.cond f).isSome = true) (hkeep : c.keepMode f = false) (hauto : c.autoClear f = false)
    (hpipe : ∀ t f, .refused t f KqM.EPIPE ∉ tr) (readable : Bool) (hi : KqM.Indicates c s.k readable) : readable = true := by
  cases hrd : readable with
  | true => rfl
  | false =>
    subst hrd
    obtain ⟨⟨s1, h1, h2⟩, _⟩ := kqueue_silent c _ s tr h hi t ht hl ho 1 Nat.one_pos
    have hw := kq_enters ht hl ho false (cap := 1) Nat.one_pos
    rw [hw] at h1
    cases h1
    have hr1 : KqM.Reach c KqM.Calm _ (.waitBegin t :: tr) := h.step ⟨by unfold KqM.Honest; rw [ho]; trivial, by unfold KqM.Works; rw [ho]; trivial⟩ hw
    obtain ⟨s2, evs, _, _, _, _, _, _, h3, _⟩ := C58.kqueue_live_partial c hok _ _ hr1 t false 1 (KqM.upd_self _ _ _) fd key r w mode hask f hf hready hkeep hauto
      (by intro u g hm; rcases List.mem_cons.1 hm with hm | hm; · cases hm
          · exact hpipe u g hm)
    rw [h2] at h3; cases h3

/-- The system call of a `notify` does not depend on the thread that waits. -/
theorem kq_beside {c : KqM.Cfg} {s s1 : KqM.S} {t u : Tid} {p : KqM.Pc} {b : Option Tid} {a : KqM.Act} {o} (ha : a = .change none ∨ a = .write false)
    (hut : u ≠ t) (hs : KqM.step c { s with lib := b, pc := KqM.upd s.pc t p } u a = some (s1, o)) :
    ∃ s1', KqM.step c s u a = some (s1', o) ∧ s1'.k = s1.k ∧ s1.pc t = KqM.upd s.pc t p t := by
  unfold KqM.step at hs ⊢
  split at hs
  · cases hs
  · next hge =>
    rw [if_neg hge]
    dsimp only at hs
    rw [KqM.upd_other _ hut] at hs
    rcases ha with rfl | rfl
    · cases hp : s.pc u with
      | submit w todo done =>
        rw [hp] at hs
        cases todo with
        | nil => cases hs
        | cons ev todo =>
          simp only at hs ⊢
          rw [if_neg (by simp)] at hs ⊢
          cases hs
          exact ⟨_, rfl, rfl, KqM.upd_other _ hut.symm⟩
      | _ => rw [hp] at hs; cases hs
    · cases hp : s.pc u with
      | nWrite =>
        rw [hp] at hs
        simp only at hs ⊢
        rw [if_neg (by simp)] at hs ⊢
        cases hs
        exact ⟨_, rfl, rfl, KqM.upd_other _ hut.symm⟩
      | _ => rw [hp] at hs; cases hs

/-- A `notify` returned and no `wait` since (and the notifier's own calls never failed): the descriptor is readable, or it will be as
soon as the `notify` call of another thread has done its system call.  Missing for the full property: that those calls may fail. -/
theorem kqueue_tells_notify_partial (c : KqM.Cfg) (hok : c.Ok) (s : KqM.S) (tr : List KObs) (h : KqM.Reach c KqM.Works s tr)
    (t : Tid) (ht : t < c.threads) (hl : s.lib = none) (ho : s.pc t = .out) (hn : KqSpec.owed tr = true) (readable : Bool)
    (hi : KqM.Indicates c s.k readable) :
    readable = true ∨ ∃ u a s1 o, u ≠ t ∧ KqM.pend (s.pc u) = true ∧ (a = .change none ∨ a = .write false) ∧
      KqM.step c s u a = some (s1, o) ∧
      ∀ readable', KqM.Indicates c s1.k readable' → readable' = true := by
  have hw := kq_enters ht hl ho false (cap := 1) Nat.one_pos
  have hr1 : KqM.Reach c KqM.Works _ (.waitBegin t :: tr) := h.step (by unfold KqM.Works; rw [ho]; trivial) hw
  have fin : ∀ {s1 : KqM.S} {tr1}, KqM.Reach c KqM.Works s1 tr1 → s1.pc t = .wKev false 1 → (∃ s' evs, KqM.step c s1 t .kevent = some (s', .deliver t evs)) →
      ∀ readable', KqM.Indicates c s1.k readable' → readable' = true := by
    intro s1 tr1 hr hpc ⟨s', evs, hs⟩ b hi
    cases b with
    | true => rfl
    | false =>
      exfalso
      have hnil := (kq_harvest_nil hr Nat.one_pos).2 (hi.1 rfl)
      unfold KqM.step at hs
      rw [if_neg (by omega)] at hs
      simp only [hpc] at hs
      rw [if_neg (by simp [hnil])] at hs
      cases hs
  rcases C04.kqueue_notification_not_lost c hok _ _ hr1 hn t false 1 (KqM.upd_self _ _ _) with hk | ⟨u, a, s1, o, hut, hpe, ha, hs, hk⟩
  · exact .inl (fin hr1 (KqM.upd_self _ _ _) hk readable hi)
  · dsimp only at hpe
    rw [KqM.upd_other _ hut] at hpe
    have hnf : KqM.noFault a = true := by rcases ha with rfl | rfl <;> rfl
    obtain ⟨s1', hs', hk', hpc⟩ := kq_beside ha hut hs
    refine .inr ⟨u, a, s1', o, hut, hpe, ha, hs', ?_⟩
    rw [hk']
    exact fin (hr1.step (KqM.works_of hnf) hs) (by rw [hpc]; exact KqM.upd_self _ _ _) hk

/-- At the end of a run: what a kernel indicates that looks at the filters, the number of active filters, whether `kevent` lets a `wait`
without a timeout go, with what keys, and how often `wait`s came back empty-handed and `notify` was called. -/
def kqSummary (c : KqM.Cfg) (as : List (Tid × KqM.Act)) : Option (Bool × Nat × Option (List (BitVec 64)) × Nat × Nat) :=
  (runLog (fun s (a : Tid × KqM.Act) => KqM.step c s a.1 a.2) (KqM.init c fun _ => none) as []).map fun r =>
    (KqM.pollIn c r.1.k, r.1.k.queue.length,
     ((KqM.step c r.1 0 (.wait false 8)).bind fun q => KqM.step c q.1 0 .kevent).bind fun q => (match q.2 with | .deliver _ evs => some (evs.map KEvent.udata) | _ => none),
     emptyBacks (r.2.filterMap KqM.handOf), notifies (r.2.filterMap KqM.handOf))

/-- Thread 1 registers descriptor 7 for reading. -/
def kqAdd (mode : PollMode) : List (Tid × KqM.Act) := by_ 1 [.call (.add 7 (Event.onlyReadable 11) mode), .src, .src, .change none, .change none, .eval]

/-- The exception: the descriptor of the user was readable and is not any more, its filter is still active.  A kernel may indicate that
the poller is readable, but a `wait` sleeps. -/
theorem kqueue_alarm_false :
    ∃ (s : KqM.S) (l : List ((Tid × KqM.Act) × KObs)),
      Runs (fun s => ∃ cond, s = KqM.init C04.userCfg cond) (fun s (a : Tid × KqM.Act) => KqM.step C04.userCfg s a.1 a.2) (fun a => KqM.Proper a ∧ a.2 ≠ .notifyCas) s l ∧
      KqM.Indicates C04.userCfg s.k true ∧
      ∃ s1, KqM.step C04.userCfg s 0 (.wait false 8) = some (s1, .waitBegin 0) ∧ KqM.step C04.userCfg s1 0 .kevent = none := by
  have h : ((runLog (fun s (a : Tid × KqM.Act) => KqM.step C04.userCfg s a.1 a.2) (KqM.init C04.userCfg fun _ => none)
      (kqAdd .level ++ by_ 0 [.cond (.read 7) (some false), .cond (.read 7) none]) []).map fun r =>
        (r.1.k.queue.isEmpty, KqM.pollIn C04.userCfg r.1.k, r.1.lib, r.1.pc 0)) = some (false, false, none, .out) := by decide +kernel
  rw [Option.map_eq_some_iff] at h
  obtain ⟨⟨s, l⟩, h1, h2⟩ := h
  simp only [Prod.mk.injEq] at h2
  obtain ⟨hq, hp, hl, ho⟩ := h2
  have hr := runs_of_log (ini := fun s => ∃ cond, s = KqM.init C04.userCfg cond) (P := fun a => KqM.Proper a ∧ a.2 ≠ KqM.Act.notifyCas) (.init ⟨_, rfl⟩) (by
    intro a ha
    simp only [kqAdd, by_, List.map_cons, List.map_nil, List.cons_append, List.nil_append, List.mem_cons, List.not_mem_nil, or_false] at ha
    rcases ha with rfl | rfl | rfl | rfl | rfl | rfl | rfl | rfl <;> exact ⟨trivial, nofun⟩) h1
  refine ⟨s, l, hr, ⟨nofun, fun _ he => by rw [he] at hq; cases hq⟩, ?_⟩
  exact (kqueue_silent C04.userCfg _ s _ (KqM.runs_reach hr) ⟨fun _ => hp, nofun⟩ 0 (by decide) hl ho 8 (by decide)).1

/-- Runs that meet the hypotheses: nothing to report; an event; the event that is gone; a notification, with either notifier; a
notification in progress. -/
example :
    kqSummary C04.userCfg (kqAdd .level) = some (false, 0, none, 0, 0) ∧
    kqSummary C04.userCfg (kqAdd .oneshot ++ by_ 0 [.cond (.read 7) (some false)]) = some (true, 1, some [11#64], 0, 0) ∧
    kqSummary C04.userCfg (kqAdd .level ++ by_ 0 [.cond (.read 7) (some false), .cond (.read 7) none]) = some (false, 1, none, 0, 0) ∧
    kqSummary C04.userCfg (by_ 1 [.notifyCas, .change none, .eval]) = some (true, 1, some [], 0, 1) ∧
    kqSummary C04.pairCfg (by_ 1 [.notifyCas, .write false]) = some (true, 1, some [], 0, 1) ∧
    kqSummary C04.pairCfg (by_ 1 [.notifyCas]) = some (false, 0, none, 0, 1) := by
  refine ⟨?_, ?_, ?_, ?_, ?_, ?_⟩ <;> decide +kernel

end Polling.C68
