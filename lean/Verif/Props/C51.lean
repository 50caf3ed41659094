import Verif.Proof.IocpFBuf
import Verif.Props.C49

/-! C51: no deadlock: whoever holds the mutex of a packet releases it after a few steps of its own, and nobody waits for anything
else. -/

namespace Polling.C51
open Iocp IocpSpec IocpM IocpF

/-- Nobody holds the mutexes of two packets. -/
theorem at_most_one_mutex (n : Nat) (f : F) (tr : List IObs) (h : FReach n FAny f tr) (p q : PId) (who : Who) (a b : Pos)
    (hp : f.sec p = some (who, a)) (hq : f.sec q = some (who, b)) : p = q := one_mutex h hp hq

/-- Whoever holds a mutex can go on in every state, whatever the OS answers to its system calls. -/
theorem owner_never_blocked (n : Nat) (f : F) (tr : List IObs) (h : FReach n FAny f tr) (p : PId) (who : Who) (pos : Pos)
    (hs : f.sec p = some (who, pos)) :
    (fstep n f (.unlock p)).isSome = true ∨ ∀ fault, (fstep n f (.access p fault)).isSome = true := by
  rcases owner_steps h hs with ⟨_, _, h1⟩ | h1
  · exact .inl h1
  · exact .inr h1

/-- It does at most nine accesses before it releases the mutex, whatever the others do meanwhile, and nobody else can release it or
take it. -/
theorem sections_are_short (n : Nat) (f f' : F) (as : List FAct) (h : FSteps n f as f') (p : PId) (who : Who) (pos : Pos)
    (hs : f.sec p = some (who, pos)) (hno : .unlock p ∉ as) :
    as.countP (isAccess p) ≤ 9 ∧ (f'.sec p).map (·.1) = some who := by
  obtain ⟨pos', h1, h2⟩ := section_bound h hs hno
  have := rank_le pos
  exact ⟨by omega, by rw [h1]; rfl⟩

/-- So from every state the mutex is free again after at most ten steps of its owner. -/
theorem mutexes_are_released (n : Nat) (f : F) (tr : List IObs) (h : FReach n FAny f tr) (p : PId) :
    ∃ as f', as.length ≤ 10 ∧ (∀ a ∈ as, a = .access p none ∨ a = .unlock p) ∧ FSteps n f as f' ∧ f'.sec p = none := by
  cases hs : f.sec p with
  | none => exact ⟨[], f, by simp, nofun, .nil, hs⟩
  | some wp =>
    obtain ⟨who, pos⟩ := wp
    exact section_free 9 h hs (rank_le pos)

/-- A thread in `add`, `modify`, `delete` or `notify` can always go on, or it waits for a mutex whose owner can go on. -/
theorem calls_proceed (n : Nat) (f : F) (tr : List IObs) (h : FReach n FAny f tr) (t : Tid) (ht : t < n) (hpc : f.m.pc t ≠ .out) :
    Proceeds n f (.thread t) := thread_proceeds h ht hpc

/-- So can `wait`, unless it is in the system call that waits for completions, without a timeout, and there are none. -/
theorem wait_proceeds (n : Nat) (f : F) (tr : List IObs) (h : FReach n FAny f tr) (hph : f.m.phase ≠ .idle)
    (hport : ∀ w, f.m.phase = .port w → f.m.c.port ≠ [] ∨ w.timed = true) : Proceeds n f .waiter := waiter_proceeds h hph hport

/-- So can the callbacks of waitable handles. -/
theorem callbacks_proceed (n : Nat) (f : F) (tr : List IObs) (h : FReach n FAny f tr) (p : PId) (hp : p ∈ f.m.cb ∨ p ∈ f.m.cbPost) :
    Proceeds n f (.callback p) := by
  refine callback_proceeds h ?_ hp
  have hk := (reach_cb (refine_any h).1).2 p (List.mem_append.mpr hp)
  have : (abs f).c.pk p = absPkt (decide (f.taken = some p)) (f.sec p) (f.m.c.pk p) := rfl
  rw [this] at hk
  cases hx : f.m.c.pk p with
  | waitable w => exact ⟨w, rfl⟩
  | socket s => rw [hx] at hk; cases hs : f.sec p <;> rw [hs] at hk <;> cases hk
  | free => rw [hx] at hk; cases hs : f.sec p <;> rw [hs] at hk <;> cases hk
  | custom ev => rw [hx] at hk; cases hs : f.sec p <;> rw [hs] at hk <;> cases hk
  | wakeup => rw [hx] at hk; cases hs : f.sec p <;> rw [hs] at hk <;> cases hk

/- In the run of `C49`, `modify` waits for a mutex that `wait` holds; it is free after five accesses and the release. -/

open C49 in
example : (runF 1 IocpF.init (before.take 16)).map (fun r => (r.1.sec 1, site r.1.m (.thread 0))) =
    some (some (.waiter, .tryLock 0x19b#32), some (.set (C49.ev 6) .oneshot, 1)) ∧
    (runF 1 IocpF.init (before.take 16 ++ acc 5 ++ [.unlock 1])).map (fun r => r.1.sec 1) = some none := by
  decide +kernel

/-- A waitable handle is registered and signalled; its callback waits for the mutex that `modify` holds. -/
def signalled : List FAct :=
  [.plain (.call 0 (.add false 9 (C49.ev 5) .level))] ++ C49.go 4 ++ [.plain (.waitBegin true 8)] ++ C49.wt 3 ++ [.lock .waiter 1] ++ C49.acc 4 ++
  [.unlock 1, .plain (.fire 1), .plain (.call 0 (.modify false 9 (C49.ev 6) .level))] ++ C49.go 1 ++ [.lock (.thread 0) 1]

example : (runF 1 IocpF.init signalled).map (fun r => (r.1.m.cb, r.1.sec 1)) =
    some ([1], some (.thread 0, .wsetInterest (C49.ev 6) .level)) := by decide +kernel

end Polling.C51
