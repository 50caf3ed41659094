import Verif.Proof.PollCnt
import Verif.Proof.PollHistory

/-! Invariants of the poll machine: locks, the counter of registration calls, the table. -/

set_option linter.unusedSimpArgs false

namespace Polling.PollP
open PollB PollFlags PollSpec

/-- Positions at which the thread holds the mutex of the table. -/
def holds : Pc → Bool
  | .mPop _ | .mApply _ | .mDec _ | .mCv _ | .mUnlock _ => true
  | .wSwap _ | .wPop _ | .wLoad _ | .wPark _ | .wPoll _ | .wPopAll _ _ | .wSwap2 _ _ | .wUnlock _ _ => true
  | _ => false

/-- Positions inside a `wait` that holds lib.rs `lock`. -/
def inWait : Pc → Bool
  | .wLock _ | .wSwap _ | .wPop _ | .wLoad _ | .wPark _ | .wSleep _ | .wRelock _ | .wPoll _ | .wPopAll _ _ | .wSwap2 _ _
  | .wUnlock _ _ | .wFinish _ _ => true
  | _ => false

/-- Positions at which a registration call is counted in `waiting_operations`. -/
def counted : Pc → Bool
  | .mWrite _ | .mLock _ _ | .mPop _ | .mApply _ | .mDec _ => true
  | _ => false

structure I (c : Cfg) (s : S) : Prop where
  range : ∀ t, c.threads ≤ t → s.pc t = .out
  mtx : ∀ t, holds (s.pc t) = true ↔ s.mtx = some t
  lib : ∀ t, inWait (s.pc t) = true ↔ s.lib = some t
  ops : s.ops = cnt c.threads counted s.pc

theorem init_I (c : Cfg) : I c (init c) := by
  refine ⟨fun _ _ => rfl, fun t => by simp [init, holds], fun t => by simp [init, inWait], ?_⟩
  symm; show _ = 0
  rw [cnt_zero]; intro t _; rfl

theorem wake_P {P : Pc → Bool} (hP : ∀ b, P (.wSleep b) = P (.wRelock b)) (pc : Tid → Pc) (u : Tid) :
    P (wake pc u) = P (pc u) := by
  unfold wake; split
  · next h => rw [h, hP]
  · rfl

theorem upd_self (pc : Tid → Pc) (t : Tid) (p : Pc) : upd pc t p t = p := by simp [upd]
theorem upd_ne (pc : Tid → Pc) {t u : Tid} (p : Pc) (h : u ≠ t) : upd pc t p u = pc u := by simp [upd, h]

theorem cnt_upd' {n : Nat} (P : Pc → Bool) (pc : Tid → Pc) {t : Tid} (ht : t < n) (p : Pc) :
    cnt n P (upd pc t p) = cnt n P pc + (P p).toNat - (P (pc t)).toNat := by
  have := cnt_upd P pc ht p; omega

theorem next_range {c : Cfg} {s s' : S} {t : Tid} {a : Act} {o : PObs} (ht : t < c.threads) (hn : Next c s t a s' o)
    (h : ∀ t, c.threads ≤ t → s.pc t = .out) : ∀ t, c.threads ≤ t → s'.pc t = .out := by
  intro u hu
  have hne : u ≠ t := by intro e; subst e; omega
  have := h u hu
  cases hn <;> first | (simp only [upd_ne _ _ hne]; exact this) | (simp only [wake, upd_ne _ _ hne, this]) | exact this

theorem next_mtx {c : Cfg} {s s' : S} {t : Tid} {a : Act} {o : PObs} (hn : Next c s t a s' o)
    (h : ∀ t, holds (s.pc t) = true ↔ s.mtx = some t) : ∀ t, holds (s'.pc t) = true ↔ s'.mtx = some t := by
  intro u
  have hu := h u
  have ht := h t
  have hw : ∀ pc u, holds (wake pc u) = holds (pc u) := wake_P fun _ => rfl
  by_cases e : u = t
  · subst e
    cases hn <;> simp_all [upd_self, holds]
  · have e' : ¬ t = u := fun h => e h.symm
    cases hn <;> simp_all [upd_ne _ _ e, holds]

theorem next_lib {c : Cfg} {s s' : S} {t : Tid} {a : Act} {o : PObs} (hn : Next c s t a s' o)
    (h : ∀ t, inWait (s.pc t) = true ↔ s.lib = some t) : ∀ t, inWait (s'.pc t) = true ↔ s'.lib = some t := by
  intro u
  have hu := h u
  have ht := h t
  have hw : ∀ pc u, inWait (wake pc u) = inWait (pc u) := wake_P fun _ => rfl
  by_cases e : u = t
  · subst e
    cases hn <;> simp_all [upd_self, inWait]
  · have e' : ¬ t = u := fun h => e h.symm
    cases hn <;> simp_all [upd_ne _ _ e, inWait]

theorem next_ops {c : Cfg} {s s' : S} {t : Tid} {a : Act} {o : PObs} (ht : t < c.threads) (hn : Next c s t a s' o)
    (h : s.ops = cnt c.threads counted s.pc) : s'.ops = cnt c.threads counted s'.pc := by
  have hw : ∀ pc, cnt c.threads counted (wake pc) = cnt c.threads counted pc := cnt_wake fun _ => rfl
  have hu := fun p => cnt_upd' counted s.pc ht p
  have hp := fun h => cnt_pos_of (P := counted) (pc := s.pc) ht h
  cases hn
  case notifyAtOnce | waitBusy => exact h
  all_goals
    simp_all only [counted, Bool.toNat_true, Bool.toNat_false]
    first | done | omega

end Polling.PollP
