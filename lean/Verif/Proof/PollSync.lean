import Verif.Proof.PollHist2

/-! Invariants about sleeping, the wake-up channel and notifications. -/

set_option linter.unusedSimpArgs false

namespace Polling.PollP
open PollB PollFlags PollSpec

/-! ### A waiting thread only sleeps while a registration call will wake it -/

structure J (s : S) : Prop where
  park : ∀ t b, s.pc t = .wPark b → 0 < s.ops
  sleep : ∀ t b, s.pc t = .wSleep b → 0 < s.ops ∨ ∃ u r, s.pc u = .mCv r

theorem init_J (c : Cfg) : J (init c) := ⟨fun _ _ h => (by cases h), fun _ _ h => (by cases h)⟩

theorem wake_ne_sleep (pc : Tid → Pc) (u : Tid) (b : Bool) : wake pc u ≠ .wSleep b := by
  unfold wake; split
  · exact fun h => by cases h
  · next h => exact fun e => h b e

theorem wake_eq {pc : Tid → Pc} {u : Tid} {p : Pc} (h : wake pc u = p) (hp : ∀ b, p ≠ .wRelock b) : pc u = p := by
  unfold wake at h; split at h
  · exact absurd h.symm (hp _)
  · exact h

theorem wake_of {pc : Tid → Pc} {u : Tid} {p : Pc} (h : pc u = p) (hp : ∀ b, p ≠ .wSleep b) : wake pc u = p := by
  unfold wake; split
  · next b e => exact absurd (h.symm.trans e) (hp b)
  · exact h

theorem counted_pos {c : Cfg} {s : S} (hI : I c s) {t : Tid} (h : counted (s.pc t) = true) : 0 < s.ops := by
  rw [hI.ops]
  refine cnt_pos_of (t := t) ?_ h
  by_cases ht : t < c.threads
  · exact ht
  · rw [hI.range t (by omega)] at h; cases h

theorem holder_unique {c : Cfg} {s : S} (hI : I c s) {t u : Tid} (ht : holds (s.pc t) = true) (hu : holds (s.pc u) = true) :
    t = u := by
  have h1 := (hI.mtx t).1 ht
  have h2 := (hI.mtx u).1 hu
  rw [h1] at h2; exact Option.some.inj h2

theorem waiter_unique {c : Cfg} {s : S} (hI : I c s) {t u : Tid} (ht : inWait (s.pc t) = true) (hu : inWait (s.pc u) = true) :
    t = u := by
  have h1 := (hI.lib t).1 ht
  have h2 := (hI.lib u).1 hu
  rw [h1] at h2; exact Option.some.inj h2

/-- The position of a thread after a step, if the step is by another one: the same, or woken up. -/
theorem next_other {c : Cfg} {s s' : S} {t : Tid} {a : Act} {o : PObs} (hn : Next c s t a s' o) {u : Tid} (h : u ≠ t) :
    s'.pc u = s.pc u ∨ ∃ b, s.pc u = .wSleep b ∧ s'.pc u = .wRelock b := by
  have hw : ∀ p, wake (upd s.pc t p) u = s.pc u ∨ ∃ b, s.pc u = .wSleep b ∧ wake (upd s.pc t p) u = .wRelock b := by
    intro p
    unfold wake
    rw [upd_ne _ _ h]
    split
    · next b hb => exact .inr ⟨b, hb, rfl⟩
    · exact .inl rfl
  cases hn <;> first | exact .inl (upd_ne _ _ h) | exact hw _ | exact .inl rfl

theorem next_J {c : Cfg} {s s' : S} {t : Tid} {a : Act} {o : PObs} (hn : Next c s t a s' o) (hI : I c s)
    (h : J s) : J s' := by
  -- the counter only falls in a step of a thread at `mDec`
  have hops : (∃ r, s.pc t = .mDec r) ∨ s.ops ≤ s'.ops := by
    cases hn <;> first | exact .inr (Nat.le_refl _) | exact .inr (Nat.le_succ _) | exact .inl ⟨_, by assumption⟩
  refine ⟨fun u b hu => ?_, fun u b hu => ?_⟩
  · by_cases e : u = t
    · subst e
      cases hn <;> simp_all [upd_self] <;> first | omega | (have := wake_eq hu (by simp); simp_all [upd_self])
    · rcases next_other hn e with h1 | ⟨b', _, h1⟩
      · have hp := h1 ▸ hu
        have := h.park u b hp
        rcases hops with ⟨r, hr⟩ | hops
        · exact absurd (holder_unique hI (t := u) (u := t) (by rw [hp]; rfl) (by rw [hr]; rfl)) e
        · omega
      · rw [h1] at hu; cases hu
  · by_cases e : u = t
    · subst e
      cases hn
      case waitPark b' hp => exact .inl (h.park _ _ hp)
      case notifyCv => exact absurd hu (wake_ne_sleep _ _ _)
      case callCv => exact absurd hu (wake_ne_sleep _ _ _)
      all_goals simp_all [upd_self]
    · rcases next_other hn e with h1 | ⟨b', _, h1⟩
      · have hp := h1 ▸ hu
        rcases h.sleep u b hp with h2 | ⟨v, r, hv⟩
        · rcases hops with ⟨r, hr⟩ | hops
          · cases hn <;> simp_all
            · exact ⟨t, r, upd_self _ _ _⟩
            · exact .inl (by omega)
          · exact .inl (by omega)
        · by_cases ev : v = t
          · subst ev
            cases hn <;> simp_all
            exact absurd hu (wake_ne_sleep _ _ _)
          · rcases next_other hn ev with h3 | ⟨b', h3, _⟩
            · exact .inr ⟨v, r, h3 ▸ hv⟩
            · rw [hv] at h3; cases h3
      · rw [h1] at hu; cases hu

/-! ### While the waiting thread is in `poll()`, wake-ups are in the channel (writes do not fail) -/

structure L (s : S) : Prop where
  reg : ∀ t b, s.pc t = .wPoll b → ∀ u op sent, s.pc u = .mLock op sent → 0 < s.chan
  note : ∀ t b, s.pc t = .wLoad b ∨ s.pc t = .wPoll b → s.notified = true → 0 < s.chan ∨ ∃ u, s.pc u = .nWrite

theorem init_L (c : Cfg) : L (init c) :=
  ⟨fun _ _ h => (by cases h), fun _ _ h => (by rcases h with h | h <;> cases h)⟩

/-- The channel only loses bytes in steps of the holder of the mutex. -/
theorem next_chan {c : Cfg} {s s' : S} {t : Tid} {a : Act} {o : PObs} (hn : Next c s t a s' o) :
    holds (s.pc t) = true ∨ s.chan ≤ s'.chan := by
  cases hn <;> first | exact .inr (Nat.le_refl _) | exact .inr (Nat.le_succ _) | (left; simp [*, holds])

theorem next_L {c : Cfg} {s s' : S} {t : Tid} {a : Act} {o : PObs} (ha : WritesWork a) (hn : Next c s t a s' o) (hI : I c s)
    (h : L s) : L s' := by
  have hch := next_chan hn
  refine ⟨fun u b hu v op sent hv => ?_, fun u b hu hN => ?_⟩
  · by_cases e : u = t
    · subst e
      have hne : v ≠ u := by intro e; subst e; rw [hu] at hv; cases hv
      rcases next_other hn hne with h1 | ⟨b', _, h1⟩
      · have hv' := h1 ▸ hv
        have hpos := counted_pos hI (t := v) (by rw [hv']; rfl)
        cases hn <;> simp_all [upd_self] <;> first | omega | (have := wake_eq hu (by simp); simp_all [upd_self])
      · rw [h1] at hv; cases hv
    · rcases next_other hn e with h1 | ⟨b', _, h1⟩
      · have hu' := h1 ▸ hu
        have hle : s.chan ≤ s'.chan := by
          rcases hch with h2 | h2
          · exact absurd (holder_unique hI (t := u) (u := t) (by rw [hu']; rfl) h2) e
          · exact h2
        by_cases ev : v = t
        · subst ev
          cases hn <;> simp_all [upd_self, WritesWork] <;> (have := wake_eq hv (by simp); simp_all [upd_self])
        · rcases next_other hn ev with h3 | ⟨b', _, h3⟩
          · have := h.reg u b hu' v op sent (h3 ▸ hv); omega
          · rw [h3] at hv; cases hv
      · rw [h1] at hu; cases hu
  · by_cases e : u = t
    · subst e
      have hwit : (∃ v, s.pc v = .nWrite) → s.pc u ≠ .nWrite → ∃ v, s'.pc v = .nWrite := by
        rintro ⟨v, hv⟩ hne
        have hvu : v ≠ u := by intro e; subst e; exact hne hv
        rcases next_other hn hvu with h3 | ⟨b', h3, _⟩
        · exact ⟨v, h3 ▸ hv⟩
        · rw [hv] at h3; cases h3
      cases hn
      case waitLoad b' hp ho =>
        rcases h.note u b' (.inl hp) hN with h4 | h4
        · exact .inl h4
        · exact .inr (hwit h4 (by rw [hp]; simp))
      all_goals first
        | (simp_all [upd_self]; done)
        | (exfalso; rcases hu with hu | hu <;> (have := wake_eq hu (by simp); simp_all [upd_self]))
    · rcases next_other hn e with h1 | ⟨b', _, h1⟩
      · rw [h1] at hu
        have hhold : holds (s.pc u) = true := by rcases hu with hu | hu <;> rw [hu] <;> rfl
        have hle : s.chan ≤ s'.chan := by
          rcases hch with h2 | h2
          · exact absurd (holder_unique hI (t := u) (u := t) hhold h2) e
          · exact h2
        by_cases hold : s.notified = true
        · rcases h.note u b hu hold with h4 | ⟨v, hv⟩
          · exact .inl (by omega)
          · by_cases ev : v = t
            · subst ev
              cases hn <;> simp_all [WritesWork]
            · rcases next_other hn ev with h3 | ⟨b', h3, _⟩
              · exact .inr ⟨v, h3 ▸ hv⟩
              · rw [hv] at h3; cases h3
        · -- the flag was set by this step
          cases hn <;> simp_all
          exact .inr ⟨t, upd_self _ _ _⟩
      · rcases hu with hu | hu <;> (rw [h1] at hu; cases hu)

/-! ### Notifications are not lost unless a `wait` fails with `WouldBlock` -/

/-- The waiting thread has taken the notification and is on its way out. -/
def took : Pc → Bool
  | .wPop _ | .wUnlock _ (.ok _) | .wFinish _ (.ok _) | .wUnlock _ (.err .wouldBlock) | .wFinish _ (.err .wouldBlock) => true
  | _ => false

/-- No `wait` has failed with `WouldBlock`. -/
def NoSpurious (tr : List PObs) : Prop := ∀ t, PObs.waitErr t .wouldBlock ∉ tr

structure K (s : S) (tr : List PObs) : Prop where
  lib : s.libNotified = true → s.notified = true ∨ (∃ t, s.pc t = .nSwap) ∨ ∃ t, took (s.pc t) = true
  due : due tr = true → s.libNotified = true
  began : ∀ t, (notices tr).1 t = true → s.libNotified = true

theorem init_K (c : Cfg) : K (init c) [] :=
  ⟨fun h => (by cases h), fun h => (by cases h), fun _ h => (by cases h)⟩

theorem wake_took (pc : Tid → Pc) (u : Tid) : took (wake pc u) = took (pc u) := wake_P (fun _ => rfl) pc u

/-- With a notification pending, looking at the results ends the wait. -/
theorem round_again {os order b fds tbl} (h : PollB.round os order b fds = some (tbl, .again)) : b = false := by
  cases b with
  | false => rfl
  | true =>
    unfold PollB.round at h
    simp only at h
    split at h
    · cases h
    · split at h
      · cases h
      · simp only [Bool.not_true, Bool.false_and] at h
        repeat' split at h
        all_goals simp_all

theorem next_K {c : Cfg} {s s' : S} {t : Tid} {a : Act} {o : PObs} {tr} (ha : WritesWork a) (hn : Next c s t a s' o) (hI : I c s)
    (hno : o ≠ .waitErr t .wouldBlock) (h : K s tr) : K s' (o :: tr) := by
  have hkeep : (∃ v, s.pc v = .nSwap) → s.pc t ≠ .nSwap → ∃ v, s'.pc v = .nSwap := by
    rintro ⟨v, hv⟩ hne
    have hvu : v ≠ t := by intro e; subst e; exact hne hv
    rcases next_other hn hvu with h3 | ⟨b', h3, _⟩
    · exact ⟨v, h3 ▸ hv⟩
    · rw [hv] at h3; cases h3
  have hkeep2 : (∃ v, took (s.pc v) = true) → took (s.pc t) = false → ∃ v, took (s'.pc v) = true := by
    rintro ⟨v, hv⟩ hne
    have hvu : v ≠ t := by intro e; subst e; rw [hne] at hv; cases hv
    rcases next_other hn hvu with h3 | ⟨b', h3, _⟩
    · exact ⟨v, h3 ▸ hv⟩
    · rw [h3] at hv; cases hv
  have hlib : s'.libNotified = false → s.libNotified = false ∨ ∃ n evs, o = .waitOk t n evs := by
    cases hn <;> simp_all
  have hdue : PollP.due (o :: tr) = true → s'.libNotified = true := by
    intro hd
    have h1 := h.due
    have h2 := h.began t
    cases hn <;> simp_all [PollP.due, notices] <;> (rcases hd with hd | hd <;> simp_all)
  have hbegan : ∀ u, (notices (o :: tr)).1 u = true → s'.libNotified = true := by
    intro u hd
    have h1 := h.began u
    cases hn <;> simp_all [notices]
  refine ⟨fun hN => ?_, hdue, hbegan⟩
  by_cases hold : s.libNotified = true
  · have hdisj := h.lib hold
    have hself : ∀ p, took p = true → took (upd s.pc t p t) = true := fun p hp => by rw [upd_self]; exact hp
    cases hn
    case notifySwap hp hn' => exact .inl rfl
    case notifySwapSet hp hn' => exact .inl hn'
    case waitSwapSet b hp hn' => exact .inr (.inr ⟨t, hself _ rfl⟩)
    case waitPop b hp hn' => exact .inr (.inr ⟨t, hself _ rfl⟩)
    case waitPopFail b hp hn' => exact .inr (.inr ⟨t, hself _ rfl⟩)
    case waitDone => exact .inr (.inr ⟨t, hself _ rfl⟩)
    case waitUnlock b r hp =>
      rcases hdisj with h1 | h1 | ⟨v, hv⟩
      · exact .inl h1
      · exact .inr (.inl (hkeep h1 (by rw [hp]; simp)))
      · have hvt : v = t := by
          refine waiter_unique hI ?_ (by rw [hp]; rfl)
          revert hv; cases s.pc v <;> simp [took, inWait]
        subst hvt
        refine .inr (.inr ⟨v, hself _ ?_⟩)
        rw [hp] at hv
        cases r with
        | ok evs => rfl
        | err e => cases e <;> simp_all [took]
    case waitErr b e hp he =>
      rcases hdisj with h1 | h1 | h1
      · exact .inl h1
      · exact .inr (.inl (hkeep h1 (by rw [hp]; simp)))
      · refine .inr (.inr (hkeep2 h1 ?_))
        rw [hp]
        cases e <;> simp_all [took]
    case waitOk => cases hN
    case waitSwap b hp hn' =>
      rcases hdisj with h1 | h1 | h1
      · rw [hn'] at h1; cases h1
      · exact .inr (.inl (hkeep h1 (by rw [hp]; simp)))
      · exact .inr (.inr (hkeep2 h1 (by rw [hp]; rfl)))
    case waitAgain b os order tbl hp ho hr =>
      rcases hdisj with h1 | h1 | h1
      · -- with the flag set, the round ends the wait
        rw [round_again hr] at h1; cases h1
      · exact .inr (.inl (hkeep h1 (by rw [hp]; simp)))
      · exact .inr (.inr (hkeep2 h1 (by rw [hp]; rfl)))
    all_goals
      first
      | (rcases hdisj with h1 | h1 | h1
         · exact .inl h1
         · exact .inr (.inl (hkeep h1 (by simp [*])))
         · exact .inr (.inr (hkeep2 h1 (by simp [*, took]))))
      | skip
  · cases hn <;> simp_all
    exact .inr (.inl ⟨t, upd_self _ _ _⟩)

/-! ### The number of unread bytes -/

/-- About to write for a notification. -/
def nPend : Pc → Bool
  | .nSwap | .nWrite => true
  | _ => false

/-- A registration call whose byte is still to be taken back. -/
def mPend : Pc → Bool
  | .mLock _ true | .mPop _ => true
  | _ => false

/-- A `wait` that will end successfully, or has just found or made the channel empty. -/
def late : Pc → Bool
  | .wSwap2 _ _ | .wUnlock _ (.ok _) | .wFinish _ (.ok _) => true
  | _ => false

/-- Bytes in the channel, with those about to be written. -/
def Q (c : Cfg) (s : S) : Prop :=
  s.chan + cnt c.threads nPend s.pc + (!s.libNotified).toNat + cnt c.threads late s.pc ≤
    c.threads + 1 + cnt c.threads mPend s.pc

theorem init_Q (c : Cfg) : Q c (init c) := by
  have h1 : cnt c.threads nPend (init c).pc = 0 := by rw [cnt_zero]; intro t _; rfl
  have h2 : cnt c.threads late (init c).pc = 0 := by rw [cnt_zero]; intro t _; rfl
  unfold Q
  rw [h1, h2]
  simp [init]
  omega

/-- At most one thread is in a `wait`. -/
theorem cnt_late_le {c : Cfg} {s : S} (hI : I c s) : ∀ n, cnt n late s.pc ≤ 1 := by
  intro n
  induction n with
  | zero => simp [cnt]
  | succ n ih =>
    simp only [cnt]
    cases hl : late (s.pc n) with
    | false => simpa using ih
    | true =>
      have : cnt n late s.pc = 0 := by
        rw [cnt_zero]
        intro t ht
        cases hp : late (s.pc t) with
        | false => rfl
        | true =>
          have : t = n := by
            refine waiter_unique hI ?_ ?_
            · revert hp; cases s.pc t <;> simp [late, inWait]
            · revert hl; cases s.pc n <;> simp [late, inWait]
          omega
      simp [this]

theorem cnt_two {n : Nat} {P R : Pc → Bool} (h : ∀ p, ¬ (P p = true ∧ R p = true)) (pc : Tid → Pc) :
    cnt n P pc + cnt n R pc ≤ n := by
  rw [← cnt_or h]; exact cnt_le _ _ _

theorem pop_le (k : Chan) (n : Nat) : (pop k n).2 ≤ n := by cases k <;> simp [pop]
theorem pop_lt {k : Chan} {n : Nat} (h : 0 < n) : (pop k n).2 < n := by cases k <;> simp [pop] <;> omega
theorem popAll_le (k : Chan) (n : Nat) : (popAll k n).2 ≤ n := by cases k <;> simp [popAll]
theorem popAll_done {k : Chan} {n : Nat} (h : (popAll k n).1 = false) : (popAll k n).2 = 0 := by
  cases k <;> simp_all [popAll]

/-- If the channel is empty, there is room even for a `wait` that is on its way out. -/
theorem Q_empty {c : Cfg} {s : S} (hI : I c s) {t : Tid} (ht : t < c.threads) (hp : nPend (s.pc t) = false) (hc : s.chan = 0) :
    s.chan + cnt c.threads nPend s.pc + (!s.libNotified).toNat + cnt c.threads late s.pc ≤ c.threads + 1 ∧
    (late (s.pc t) = false → inWait (s.pc t) = true →
      s.chan + cnt c.threads nPend s.pc + (!s.libNotified).toNat + cnt c.threads late s.pc ≤ c.threads) ∧
    (inWait (s.pc t) = false →
      s.chan + cnt c.threads nPend s.pc + (!s.libNotified).toNat + cnt c.threads late s.pc ≤ c.threads) := by
  have h1 : (!s.libNotified).toNat ≤ 1 := Bool.toNat_le _
  have h2 := cnt_late_le hI c.threads
  have h3 := cnt_two (n := c.threads) (P := nPend) (R := late) (by intro p; cases p <;> simp [nPend, late]) s.pc
  have h4 : cnt c.threads nPend s.pc + cnt c.threads late s.pc + (if late (s.pc t) then 0 else 1) ≤ c.threads := by
    have := cnt_two (n := c.threads) (P := fun p => nPend p || late p) (R := fun p => !(nPend p || late p))
      (by intro p; cases nPend p <;> cases late p <;> simp) s.pc
    have h5 := cnt_or (n := c.threads) (P := nPend) (Q := late) (by intro p; cases p <;> simp [nPend, late]) s.pc
    cases hl : late (s.pc t) with
    | true => simp; omega
    | false =>
      have : 0 < cnt c.threads (fun p => !(nPend p || late p)) s.pc := cnt_pos_of ht (by simp [hp, hl])
      simp; omega
  refine ⟨by omega, fun hl hw => ?_, fun hw => ?_⟩
  · rw [hl] at h4; simp at h4; omega
  · have hl : late (s.pc t) = false := by revert hw; cases s.pc t <;> simp [late, inWait]
    rw [hl] at h4; simp at h4; omega

theorem next_Q {c : Cfg} {s s' : S} {t : Tid} {a : Act} {o : PObs} (ht : t < c.threads) (hn : Next c s t a s' o) (hI : I c s)
    (h : Q c s) : Q c s' := by
  have hw1 : ∀ pc, cnt c.threads nPend (wake pc) = cnt c.threads nPend pc := cnt_wake fun _ => rfl
  have hw2 : ∀ pc, cnt c.threads mPend (wake pc) = cnt c.threads mPend pc := cnt_wake fun _ => rfl
  have hw3 : ∀ pc, cnt c.threads late (wake pc) = cnt c.threads late pc := cnt_wake fun _ => rfl
  have hu1 := fun p => cnt_upd' nPend s.pc ht p
  have hu2 := fun p => cnt_upd' mPend s.pc ht p
  have hu3 := fun p => cnt_upd' late s.pc ht p
  have hp1 := fun h => cnt_pos_of (P := nPend) (pc := s.pc) ht h
  have hp2 := fun h => cnt_pos_of (P := mPend) (pc := s.pc) ht h
  have hp3 := fun h => cnt_pos_of (P := late) (pc := s.pc) ht h
  have hb : (!s.libNotified).toNat ≤ 1 := Bool.toNat_le _
  have hpl := pop_le c.chan s.chan
  have hpl' := popAll_le c.chan s.chan
  have hplt := fun h => pop_lt (k := c.chan) (n := s.chan) h
  have hE := fun hp hc => Q_empty hI ht hp hc
  unfold Q at h ⊢
  cases hn
  case notifyAtOnce | waitBusy => exact h
  case callPop op hp =>
    simp only [hp, nPend, mPend, late, inWait, forall_const, Bool.toNat_true, Bool.toNat_false, hu1, hu2, hu3, true_implies] at *
    by_cases h0 : s.chan = 0
    · have := (hE h0).2.2; omega
    · have := hplt (by omega); omega
  case waitPop b hp hpop =>
    simp only [hp, nPend, mPend, late, inWait, forall_const, Bool.toNat_true, Bool.toNat_false, hu1, hu2, hu3, true_implies] at *
    by_cases h0 : s.chan = 0
    · have := (hE h0).2.1; omega
    · have := hplt (by omega); omega
  case waitPoll b os hp _ h0 _ =>
    simp only [hp, nPend, mPend, late, inWait, forall_const, Bool.toNat_true, Bool.toNat_false, hu1, hu2, hu3, true_implies] at *
    have := (hE h0).2.1; omega
  case waitPopAll b os hp h0 =>
    have hz := popAll_done h0
    have hE' := Q_empty (s := { s with chan := 0 }) ⟨hI.range, hI.mtx, hI.lib, hI.ops⟩ ht (by simp only [hp]; rfl) rfl
    simp only [hp, nPend, mPend, late, inWait, forall_const, Bool.toNat_true, Bool.toNat_false, hu1, hu2, hu3, true_implies] at *
    have := hE'.2.1; omega
  case waitUnlock b r hp =>
    clear hE hI
    cases r <;> simp_all [nPend, mPend, late] <;> omega
  all_goals
    clear hE hI
    simp_all [nPend, mPend, late]
  all_goals omega

end Polling.PollP
