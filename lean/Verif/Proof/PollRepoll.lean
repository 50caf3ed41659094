import Verif.Proof.PollReach
import Verif.Proof.PollRound

/-! How often the poll backend calls `poll()`. -/

namespace Polling.PollP
open PollB PollFlags PollSpec

/-- How often `poll()` was called, a `poll()` failed, a call began, a `notify` set the flag, a `wait` began. -/
def polledN (tr : List PObs) : Nat := tr.countP fun o => match o with | .polled .. => true | _ => false
def failedN (tr : List PObs) : Nat := tr.countP fun o => match o with | .pollFailed _ => true | _ => false
def callN (tr : List PObs) : Nat := tr.countP fun o => match o with | .callBegin .. => true | _ => false
def notifyN (tr : List PObs) : Nat := tr.countP fun o => match o with | .notifyBegin _ => true | _ => false
def waitN (tr : List PObs) : Nat := tr.countP fun o => match o with | .waitBegin _ => true | _ => false
def againN (tr : List PObs) : Nat := tr.countP fun o => match o with | .round _ _ _ _ .again => true | _ => false

/-- A call of `poll()` is still ahead. -/
def ahead : Pc → Bool
  | .wLock _ | .wSwap _ | .wPop _ | .wLoad _ | .wPark _ | .wSleep _ | .wRelock _ => true
  | .wUnlock _ (.err .interrupted) | .wFinish _ (.err .interrupted) => true
  | _ => false

/-- A byte may still be written. -/
def writer : Pc → Bool
  | .nSwap | .nWrite | .mWrite _ => true
  | _ => false

/-- Bytes were read, and it is not yet decided whether to poll again. -/
def woken (c : Cfg) : Pc → Bool
  | .wSwap2 _ os => decide (os c.n.readFd c.n.flags ≠ 0#16)
  | _ => false

/-- Bytes are being read. -/
def reading : Pc → Bool
  | .wPopAll .. => true
  | _ => false

structure Rounds (c : Cfg) (s : S) (tr : List PObs) : Prop where
  first : polledN tr + cnt c.threads ahead s.pc ≤ waitN tr + failedN tr + againN tr
  bytes : againN tr + cnt c.threads (woken c) s.pc + s.chan + cnt c.threads writer s.pc ≤ callN tr + notifyN tr
  read : againN tr + cnt c.threads (woken c) s.pc + cnt c.threads reading s.pc + cnt c.threads writer s.pc ≤ callN tr + notifyN tr

theorem popAll_last {k ch} (h : (popAll k ch).1 = false) : (popAll k ch).2 = 0 := by
  unfold popAll at *; split at h <;> simp_all

/-- A thread moves, and what it has to pay for is observed. -/
theorem Rounds.move {c s s' t o tr p0} (ht : t < c.threads) (h : Rounds c s tr) (h0 : s.pc t = p0) (p1 : Pc)
    (hc : cnt c.threads ahead s'.pc = cnt c.threads ahead (upd s.pc t p1) ∧ cnt c.threads (woken c) s'.pc = cnt c.threads (woken c) (upd s.pc t p1) ∧
      cnt c.threads reading s'.pc = cnt c.threads reading (upd s.pc t p1) ∧ cnt c.threads writer s'.pc = cnt c.threads writer (upd s.pc t p1))
    (ha : polledN [o] + (ahead p1).toNat ≤ (ahead p0).toNat + waitN [o] + failedN [o] + againN [o])
    (hb : againN [o] + (woken c p1).toNat + s'.chan + (writer p1).toNat ≤
      (woken c p0).toNat + s.chan + (writer p0).toNat + callN [o] + notifyN [o])
    (hd : againN [o] + (woken c p1).toNat + (reading p1).toNat + (writer p1).toNat ≤
      (woken c p0).toNat + (reading p0).toNat + (writer p0).toNat + callN [o] + notifyN [o]) : Rounds c s' (o :: tr) := by
  have e : ∀ f : PObs → Bool, (o :: tr).countP f = [o].countP f + tr.countP f := by
    intro f; rw [List.countP_cons, List.countP_cons]; simp; omega
  have u1 := cnt_upd ahead s.pc ht p1
  have u2 := cnt_upd (woken c) s.pc ht p1
  have u3 := cnt_upd reading s.pc ht p1
  have u4 := cnt_upd writer s.pc ht p1
  rw [h0] at u1 u2 u3 u4
  obtain ⟨h1, h2, h3⟩ := h
  obtain ⟨c1, c2, c3, c4⟩ := hc
  refine ⟨?_, ?_, ?_⟩
  · have := e; unfold polledN waitN failedN againN at *
    rw [c1, e, e, e, e]; omega
  · unfold againN callN notifyN at *
    rw [c2, c4, e, e, e]; omega
  · unfold againN callN notifyN at *
    rw [c2, c3, c4, e, e, e]; omega

theorem next_rounds {c P s s' t a o tr} (hr : Reach c P s tr) (ht : t < c.threads) (hn : Next c s t a s' o) (h : Rounds c s tr) : Rounds c s' (o :: tr) := by
  have hI := reach_I hr
  have hT := reach_T hr
  have w1 : ∀ pc, cnt c.threads ahead (wake pc) = cnt c.threads ahead pc := cnt_wake fun _ => rfl
  have w2 : ∀ pc, cnt c.threads (woken c) (wake pc) = cnt c.threads (woken c) pc := cnt_wake fun _ => rfl
  have w3 : ∀ pc, cnt c.threads reading (wake pc) = cnt c.threads reading pc := cnt_wake fun _ => rfl
  have w4 : ∀ pc, cnt c.threads writer (wake pc) = cnt c.threads writer pc := cnt_wake fun _ => rfl
  have u1 := fun p => cnt_upd ahead s.pc ht p
  have u2 := fun p => cnt_upd (woken c) s.pc ht p
  have u3 := fun p => cnt_upd reading s.pc ht p
  have u4 := fun p => cnt_upd writer s.pc ht p
  have hp1 := pop_le c.chan s.chan
  have hp2 := popAll_le c.chan s.chan
  obtain ⟨h1, h2, h3⟩ := h
  cases hn
  case waitPollNote b os hp hos hch hrd =>
    have z : ∀ Q : Pc → Bool, (∀ p, Q p = true → inWait p = true) → Q (.wPoll b) = false → cnt c.threads Q s.pc = 0 := by
      intro Q hQ hQb
      rw [cnt_zero]; intro v _
      cases hv : Q (s.pc v) with
      | false => rfl
      | true =>
        have a1 := (hI.lib v).1 (hQ _ hv)
        have a2 := (hI.lib t).1 (by rw [hp]; rfl)
        rw [a1] at a2; cases a2
        rw [hp, hQb] at hv; cases hv
    have z2 := z reading (by intro p hp; cases p <;> first | rfl | cases hp) rfl
    have u1 := u1 (.wPopAll b os); have u2 := u2 (.wPopAll b os); have u3 := u3 (.wPopAll b os); have u4 := u4 (.wPopAll b os)
    simp only [hp, ahead, woken, reading, writer, Bool.toNat_true, Bool.toNat_false] at u1 u2 u3 u4
    refine ⟨?_, ?_, ?_⟩ <;> simp only [polledN, failedN, callN, notifyN, waitN, againN, List.countP_cons] at * <;> simp at * <;> omega
  case waitAgain b os order tbl hp ho hrd =>
    have hos : os c.n.readFd c.n.flags ≠ 0#16 := by
      obtain ⟨fds', _, _, he⟩ := round_spec hT.inv hT.rel os order (enumerates_of hT.rel (lists_of_perm hT.inv hT.rel ho)) s.notified
      rw [he] at hrd
      simp only [Option.some.injEq, Prod.mk.injEq] at hrd
      have := hrd.2
      split at this
      · rename_i hx; exact hx.2.1
      · cases this
    have u1 := u1 (.wSwap b); have u2 := u2 (.wSwap b); have u3 := u3 (.wSwap b); have u4 := u4 (.wSwap b)
    simp only [hp, ahead, woken, reading, writer, Bool.toNat_true, Bool.toNat_false, decide_eq_true hos] at u1 u2 u3 u4
    refine ⟨?_, ?_, ?_⟩ <;> simp only [polledN, failedN, callN, notifyN, waitN, againN, List.countP_cons] at * <;> simp at * <;> omega
  case waitPopAll b os hp hlast =>
    have hz := popAll_last hlast
    have u1 := u1 (.wSwap2 b os); have u2 := u2 (.wSwap2 b os); have u3 := u3 (.wSwap2 b os); have u4 := u4 (.wSwap2 b os)
    have hle : (woken c (.wSwap2 b os)).toNat ≤ 1 := Bool.toNat_le _
    generalize (woken c (.wSwap2 b os)).toNat = k at u2 hle
    simp only [hp, ahead, woken, reading, writer, Bool.toNat_true, Bool.toNat_false] at u1 u2 u3 u4
    refine ⟨?_, ?_, ?_⟩ <;> simp only [polledN, failedN, callN, notifyN, waitN, againN, List.countP_cons] at * <;> simp at * <;> omega
  case notifyAtOnce | waitBusy =>
    refine ⟨?_, ?_, ?_⟩ <;> simp only [polledN, failedN, callN, notifyN, waitN, againN, List.countP_cons] at * <;> simp at * <;> omega
  case notifyCv hp => exact Rounds.move ht ⟨h1, h2, h3⟩ hp .out ⟨w1 _, w2 _, w3 _, w4 _⟩ (by simp [ahead, polledN, waitN, failedN, againN]) (by simp [woken, writer, againN, callN, notifyN]) (by simp [woken, reading, writer, againN, callN, notifyN])
  case callCv r hp => exact Rounds.move ht ⟨h1, h2, h3⟩ hp (.mUnlock r) ⟨w1 _, w2 _, w3 _, w4 _⟩ (by simp [ahead, polledN, waitN, failedN, againN]) (by simp [woken, writer, againN, callN, notifyN]) (by simp [woken, reading, writer, againN, callN, notifyN])
  case waitPoll b os hp hos hch hrd =>
    exact Rounds.move ht ⟨h1, h2, h3⟩ hp _ ⟨rfl, rfl, rfl, rfl⟩ (by simp [ahead, polledN, waitN, failedN, againN]) (by simp [woken, writer, againN, callN, notifyN, hos]) (by simp [woken, reading, writer, againN, callN, notifyN, hos])
  case waitPollFail b e hp =>
    refine Rounds.move ht ⟨h1, h2, h3⟩ hp _ ⟨rfl, rfl, rfl, rfl⟩ ?_ (by simp [woken, writer, againN, callN, notifyN])
      (by simp [woken, reading, writer, againN, callN, notifyN])
    have : (ahead (.wUnlock b (.err e))).toNat ≤ 1 := Bool.toNat_le _
    simp only [polledN, waitN, failedN, againN, List.countP_cons, List.countP_nil]; simp; omega
  case waitUnlock b r hp =>
    refine Rounds.move ht ⟨h1, h2, h3⟩ hp _ ⟨rfl, rfl, rfl, rfl⟩ ?_ (by simp [woken, writer, againN, callN, notifyN])
      (by simp [woken, reading, writer, againN, callN, notifyN])
    have : ahead (.wUnlock b r) = ahead (.wFinish b r) := by
      cases r with
      | ok _ => rfl
      | err e => cases e <;> rfl
    rw [this]; simp [polledN, waitN, failedN, againN]
  all_goals
    have hp := ‹s.pc t = _›
    refine Rounds.move ht ⟨h1, h2, h3⟩ hp _ ⟨rfl, rfl, rfl, rfl⟩ ?_ ?_ ?_
    · simp [ahead, polledN, waitN, failedN, againN]
    · simp [woken, writer, againN, callN, notifyN]; try omega
    · simp [woken, reading, writer, againN, callN, notifyN]

theorem reach_rounds {c P s tr} (h : Reach c P s tr) : Rounds c s tr := by
  induction h with
  | init =>
    have z : ∀ Q : Pc → Bool, Q .out = false → cnt c.threads Q (init c).pc = 0 := fun Q hQ => cnt_zero.2 fun _ _ => hQ
    refine ⟨?_, ?_, ?_⟩
    · rw [z ahead rfl]; exact Nat.le_refl _
    · rw [z (woken c) rfl, z writer rfl]; exact Nat.le_refl _
    · rw [z (woken c) rfl, z writer rfl, z reading rfl]; exact Nat.le_refl _
  | step hr _ hs ih => obtain ⟨ht, hn⟩ := step_next hs; exact next_rounds hr ht hn ih

/-- The number of calls of `poll()`. -/
theorem reach_polledN {c P s tr} (h : Reach c P s tr) : polledN tr ≤ waitN tr + failedN tr + callN tr + notifyN tr := by
  have := reach_rounds h
  have h1 := this.first; have h2 := this.bytes; omega

end Polling.PollP
