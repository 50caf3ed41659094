import Verif.Proof.PollReach

/-! Which steps are possible; how long a waiting thread keeps the table. -/

set_option linter.unusedSimpArgs false

namespace Polling.PollP
open PollB PollFlags PollSpec

/-- Nothing but the wake-up channel is reported. -/
def quietOs (n : NotifyFds) (ready : Bool) : Fd → Flags → Flags :=
  fun fd _ => if fd = n.readFd ∧ ready = true then IN else 0#16

/-- The next step of the call a thread is in (with working writes, and nothing reported by the OS but the channel). -/
def nextAct (n : NotifyFds) (s : S) : Pc → Option Act
  | .out => none
  | .nSwap => some .notifySwap
  | .nWrite => some (.notifyWrite true)
  | .nCv => some .notifyCv
  | .mWrite _ => some (.callWrite true)
  | .mLock _ _ => some .callLock
  | .mPop _ => some .callPop
  | .mApply _ => some .callApply
  | .mDec _ => some .callDec
  | .mCv _ => some .callCv
  | .mUnlock _ => some .callUnlock
  | .wLock _ => some .waitLock
  | .wSwap _ => some .waitSwap
  | .wPop _ => some .waitPop
  | .wLoad _ => some .waitLoad
  | .wPark _ => some .waitPark
  | .wSleep _ => none
  | .wRelock _ => some .waitRelock
  | .wPoll _ => some (.waitPoll (quietOs n (decide (s.chan > 0))))
  | .wPopAll _ _ => some .waitPopAll
  | .wSwap2 _ _ => some (.waitSwap2 (s.tbl.pollFds.tail.map PollFd.fd))
  | .wUnlock _ _ => some .waitUnlock
  | .wFinish _ _ => some .waitFinish

theorem osPoll_quiet {n : NotifyFds} {fds : Fds} (h : Inv n fds) : 0 < (osPoll (quietOs n true) fds.pollFds).2 := by
  obtain ⟨p, hp, hf, _⟩ := h.zero
  unfold osPoll
  simp only
  apply List.length_pos_of_mem (a := { p with revents := IN })
  rw [List.mem_filter]
  refine ⟨List.mem_map.2 ⟨p, List.mem_of_getElem? hp, by simp [quietOs, hf]⟩, rfl⟩

/-- A thread that needs no lock that it does not have, no wake-up and no event can go on. -/
theorem can_step {c P s tr t a} (hr : Reach c P s tr) (ht : t < c.threads) (ha : nextAct c.n s (s.pc t) = some a)
    (hm : (∃ op b, s.pc t = .mLock op b) ∨ (∃ b, s.pc t = .wLock b) ∨ (∃ b, s.pc t = .wRelock b) → s.mtx = none)
    (hp : ∀ b, s.pc t = .wPoll b → b = true ∨ 0 < s.chan) : ∃ s' o, step c s t a = some (s', o) := by
  have hT := reach_T hr
  have hrd : ∀ r, c.n.readFd = r → quietOs c.n (decide (s.chan > 0)) r c.n.flags = if s.chan > 0 then IN else 0#16 := by
    intro r hr; subst hr; simp [quietOs]
  unfold step
  rw [if_pos ht]
  cases hpc : s.pc t <;> rw [hpc] at ha <;> simp only [nextAct] at ha <;> first | (cases ha; done) | skip
  all_goals (obtain rfl := Option.some.inj ha; simp only)
  case nSwap => split <;> exact ⟨_, _, rfl⟩
  case mLock op b => rw [if_pos (hm (.inl ⟨_, _, hpc⟩))]; exact ⟨_, _, rfl⟩
  case mApply op =>
    obtain ⟨fds', h1, _⟩ := call_spec hT.inv hT.rel op
    rw [h1]; exact ⟨_, _, rfl⟩
  case wLock b => rw [if_pos (hm (.inr (.inl ⟨_, hpc⟩)))]; exact ⟨_, _, rfl⟩
  case wRelock b => rw [if_pos (hm (.inr (.inr ⟨_, hpc⟩)))]; exact ⟨_, _, rfl⟩
  case wLoad b => split <;> exact ⟨_, _, rfl⟩
  case wPoll b =>
    rw [if_pos]
    · exact ⟨_, _, rfl⟩
    · rw [hrd _ rfl]
      by_cases hc : s.chan > 0
      · refine ⟨by simp [hc]; decide, .inl ?_⟩
        have : decide (s.chan > 0) = true := by simp [hc]
        rw [this]; exact osPoll_quiet hT.inv
      · refine ⟨by simp [hc], .inr ?_⟩
        rcases hp b hpc with h | h
        · exact h
        · exact absurd h hc
  case wSwap2 b os =>
    have hperm : (s.tbl.pollFds.tail.map PollFd.fd).isPerm (s.tbl.pollFds.tail.map PollFd.fd) = true :=
      List.isPerm_iff.2 (List.Perm.refl _)
    rw [if_pos hperm]
    have hl := lists_of_perm hT.inv hT.rel hperm
    obtain ⟨fds', _, _, h1⟩ := round_spec hT.inv hT.rel os _ (enumerates_of hT.rel hl) s.notified
    rw [h1]
    by_cases hc : s.notified = false ∧ os c.n.readFd c.n.flags ≠ 0#16 ∧
        (∀ fd ∈ s.tbl.pollFds.tail.map PollFd.fd, result os (mapOf c tr) fd = 0#16)
    · rw [if_pos hc]; exact ⟨_, _, rfl⟩
    · rw [if_neg hc]; exact ⟨_, _, rfl⟩
  case wFinish b r =>
    cases r with
    | ok => exact ⟨_, _, rfl⟩
    | err e => simp only; split <;> exact ⟨_, _, rfl⟩
  all_goals exact ⟨_, _, rfl⟩

/-- The holder of the table can go on, unless it is in `poll()` with nothing to report. -/
theorem holder_steps {c P s tr t} (hr : Reach c P s tr) (hh : holds (s.pc t) = true)
    (hp : ∀ b, s.pc t = .wPoll b → b = true ∨ 0 < s.chan) :
    ∃ a s' o, nextAct c.n s (s.pc t) = some a ∧ step c s t a = some (s', o) := by
  have hI := reach_I hr
  have ht : t < c.threads := by
    by_cases h : t < c.threads
    · exact h
    · rw [hI.range t (by omega)] at hh; cases hh
  have ha : ∃ a, nextAct c.n s (s.pc t) = some a := by
    revert hh; cases s.pc t <;> simp [holds, nextAct]
  obtain ⟨a, ha⟩ := ha
  obtain ⟨s', o, hs⟩ := can_step hr ht ha (by
    rintro (⟨op, b, h⟩ | ⟨b, h⟩ | ⟨b, h⟩) <;> (rw [h] at hh; cases hh)) hp
  exact ⟨a, s', o, ha, hs⟩

/-! ### The waiting thread gives up the table -/

def canCall : Pc → Bool
  | .out | .nSwap | .nWrite | .nCv | .mWrite _ => true
  | _ => false

def wgt : Pc → Nat
  | .wPoll _ => 6
  | .wPopAll _ _ => 5
  | .wSwap2 _ _ => 4
  | .wSwap _ => 3
  | .wLoad _ | .wPop _ => 2
  | .wPark _ | .wUnlock _ _ => 1
  | _ => 0

/-- A bound on the number of steps of the waiting thread `t` before it gives up the table. -/
def R (c : Cfg) (t : Tid) (s : S) : Nat :=
  wgt (s.pc t) + s.chan + cnt c.threads nPend s.pc + (!s.libNotified).toNat + cnt c.threads canCall s.pc

theorem R_other {c : Cfg} {s s' : S} {t u : Tid} {a : Act} {o : PObs} (ht : u < c.threads) (hn : Next c s u a s' o) (hI : I c s)
    (hne : u ≠ t) (hm : s.mtx = some t) (hw : inWait (s.pc t) = true) : R c t s' ≤ R c t s := by
  have hth := (hI.mtx t).2 hm
  have huh : holds (s.pc u) = false := by
    cases h : holds (s.pc u) with
    | false => rfl
    | true => exact absurd (holder_unique hI h hth) hne
  have huw : inWait (s.pc u) = false := by
    cases h : inWait (s.pc u) with
    | false => rfl
    | true => exact absurd (waiter_unique hI h hw) hne
  have hpc : s'.pc t = s.pc t := by
    rcases next_other hn (Ne.symm hne) with h | ⟨b, h, _⟩
    · exact h
    · rw [h] at hth; cases hth
  have hw1 : ∀ pc, cnt c.threads nPend (wake pc) = cnt c.threads nPend pc := cnt_wake fun _ => rfl
  have hw2 : ∀ pc, cnt c.threads canCall (wake pc) = cnt c.threads canCall pc := cnt_wake fun _ => rfl
  have hu1 := fun p => cnt_upd' nPend s.pc ht p
  have hu2 := fun p => cnt_upd' canCall s.pc ht p
  have hp1 := fun h => cnt_pos_of (P := nPend) (pc := s.pc) ht h
  have hp2 := fun h => cnt_pos_of (P := canCall) (pc := s.pc) ht h
  unfold R
  rw [hpc]
  cases hn
  case notifyAtOnce | waitBusy => exact Nat.le_refl _
  all_goals
    clear hpc hI hth
    simp_all [holds, inWait, nPend, canCall]
  all_goals try omega

theorem R_self {c : Cfg} {s s' : S} {t u : Tid} {a : Act} {o : PObs} (ht : t < c.threads) (hn : Next c s t a s' o) (hI : I c s)
    (hL : L s) (hm : s.mtx = some t) (hw : inWait (s.pc t) = true) (hm' : s'.mtx = some t) {op sent}
    (hu : s.pc u = .mLock op sent) : R c t s' < R c t s := by
  have hth := (hI.mtx t).2 hm
  have hops := counted_pos hI (t := u) (by rw [hu]; rfl)
  have hreg := fun b h => hL.reg t b h u op sent hu
  have hu1 := fun p => cnt_upd' nPend s.pc ht p
  have hu2 := fun p => cnt_upd' canCall s.pc ht p
  have hpl := pop_le c.chan s.chan
  have hpl' := popAll_le c.chan s.chan
  have hpm : (popAll c.chan s.chan).1 = true → (popAll c.chan s.chan).2 < s.chan := by
    cases c.chan <;> simp [popAll]; omega
  unfold R
  cases hn
  all_goals
    clear hI hL hu
    simp_all [holds, inWait, nPend, canCall, upd_self, wgt]
  all_goals try omega

theorem R_bound {c P s tr t} (hr : Reach c P s tr) : R c t s ≤ 2 * c.threads + 7 := by
  have h1 := reach_Q hr
  unfold Q at h1
  have h2 := cnt_two (n := c.threads) (P := mPend) (R := canCall) (by
    intro p; cases p <;> simp [mPend, canCall]) s.pc
  have h3 : wgt (s.pc t) ≤ 6 := by cases s.pc t <;> simp [wgt]
  unfold R
  omega

end Polling.PollP
