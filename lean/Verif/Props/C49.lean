import Verif.Proof.IocpFReal
import Verif.Props.IocpDelivery
import Verif.Props.IocpPackets

/-! C49: concurrent use of a packet is atomic: what threads do with a packet under its mutex, access by access, looks as if it
happened at one instant. -/

namespace Polling.C49
open Iocp IocpSpec IocpM IocpF

/-- Every execution in which the critical sections of the packets run access by access, interleaved with each other, with the
kernel and with everything else, shows what some execution shows in which every section is one step. -/
theorem sections_are_atomic (n : Nat) (f : F) (tr : List IObs) (h : FReach n FAny f tr) : ∃ s, Reach n Any s tr :=
  ⟨_, (refine_any h).1⟩

/-- And when no section is in progress, memory is as after that execution. -/
theorem same_memory (n : Nat) (f : F) (tr : List IObs) (h : FReach n FAny f tr) (hs : f.sec = fun _ => none) (ht : f.taken = none)
    (hw : f.written = fun _ => none) : Reach n Any f.m tr := by
  have := (refine_any h).1
  rwa [quiet_abs ⟨hs, ht, hw⟩] at this

/-- Conversely, every execution with sections as steps is one of the code, unless an update or a deletion of a packet fails that is
being polled but whose operation is over (then the code does not make the system call that could fail). -/
theorem atomic_runs_exist (n : Nat) (s : S) (tr : List IObs) (h : Reach n Early s tr) :
    ∃ f, FReach n FAny f tr ∧ f.m = s ∧ f.sec = (fun _ => none) ∧ f.taken = none ∧ f.written = fun _ => none := by
  obtain ⟨f, h1, h2, h3⟩ := realize (fun _ _ h => h) h
  exact ⟨f, h1, h3, h2.sec, h2.taken, h2.written⟩

/- The properties of events, for executions access by access. -/

/-- Events carry the key their registration has at that time. -/
theorem right_key (n : Nat) (f : F) (tr : List IObs) (h : FReach n FAny f tr) :
    EveryDelivery (fun r sock fd ev => ∃ q, r = some q ∧ q.sock = sock ∧ q.fd = fd ∧ ev.key = q.ev.key) tr :=
  C03.iocp_right_key n Any _ tr (refine_any h).1

/-- One-shot registrations fire once. -/
theorem oneshot (n : Nat) (f : F) (tr : List IObs) (h : FReach n FAny f tr) :
    EveryDelivery (fun r sock _ _ => sock = true → ∃ q, r = some q ∧ ¬(q.mode = .oneshot ∧ q.fired = true)) tr :=
  C15.iocp_oneshot n Any _ tr (refine_any h).1

/-- Deleted registrations do not fire. -/
theorem nothing_after_delete (n : Nat) (f : F) (tr : List IObs) (h : FReach n FAny f tr) :
    EveryDelivery (fun r sock _ _ => sock = true → ∃ q, r = some q ∧ q.ended = false) tr :=
  C19.iocp_nothing_after_delete n Any _ tr (refine_any h).1

/-- Events are within the interest. -/
theorem within_interest (n : Nat) (f : F) (tr : List IObs) (h : FReach n FAny f tr) :
    EveryDelivery (fun r sock _ ev => sock = true → ∃ q, r = some q ∧ (ev.readable = true → q.ev.readable = true) ∧
      (ev.writable = true → q.ev.writable = true) ∧
      (ev.readable = false → ev.writable = false → ∃ i, i < 32 ∧ ev.extra.flags.getLsbD i = true ∧ q.ev.extra.flags.getLsbD i = true)) tr :=
  C25.iocp_within_interest n Any _ tr (refine_any h).1

/-- Posted packets are found at most once, in order. -/
theorem posted_at_most_once (n : Nat) (f : F) (tr : List IObs) (h : FReach n FAny f tr) : (receipts tr).Sublist (posts tr) :=
  C31.iocp_posted_at_most_once n Any _ tr (refine_any h).1

/- A run: a socket is registered; `wait` starts to poll it, and while it does, `modify` waits for the mutex; the poll completes
while `modify` is in the middle of its section. -/

theorem reach_runF {n} : ∀ {as f f' tr out}, FReach n FAny f tr → runF n f as = some (f', out) → FReach n FAny f' (out ++ tr)
  | [], f, f', tr, out, hf, h => by cases h; exact hf
  | a :: as, f, f', tr, out, hf, h => by
    obtain ⟨r, h1, h2⟩ := Option.bind_eq_some_iff.1 h
    obtain ⟨q, h3, h4⟩ := Option.map_eq_some_iff.1 h2
    cases h4
    rw [List.append_assoc]
    exact reach_runF (.step hf trivial h1) h3

def ev (key : Key) : Event EventExtra := { key, readable := true, writable := false, extra := ⟨0#32⟩ }

/-- Steps of a thread outside of sections. -/
def go (k : Nat) : List FAct := List.replicate k (.plain (.go 0 none))
/-- Steps of `wait` outside of sections. -/
def wt (k : Nat) : List FAct := List.replicate k (.plain (.wait none))
/-- Accesses to packet 1. -/
def acc (k : Nat) : List FAct := List.replicate k (.access 1 none)

/-- The socket is registered, and `wait` takes its packet from the queue and begins the update. -/
def before : List FAct := [.plain (.call 0 (.add true 7 (ev 5) .oneshot))] ++ go 5 ++ [.plain (.waitBegin true 8)] ++ wt 3 ++
  [.lock .waiter 1] ++ acc 3 ++ [.plain (.call 0 (.modify true 7 (ev 6) .oneshot))] ++ go 1 ++ acc 5 ++ [.unlock 1]

/-- `modify` takes the mutex, and the operation completes in the middle. -/
def middle : List FAct := [.lock (.thread 0) 1] ++ acc 2 ++ wt 1 ++ [.write 1 (.ok 1 RECEIVE), .plain (.complete 1 (.ok 1 RECEIVE)),
  .plain .get] ++ wt 1 ++ [.take] ++ acc 3 ++ [.unlock 1]

/-- The completion is processed. -/
def after : List FAct := [.lock .waiter 1] ++ acc 9 ++ [.unlock 1]

/-- What is observed, latest first. -/
def seen : List IObs :=
  [.deliver true 7 1 { ev 6 with extra := ⟨RECEIVE⟩ }, .tau, .tau, .tau, .tau, .changed 0 true 7 1 (ev 6) .oneshot, .polled 1 0x19b#32, .tau,
   .begin 0 (.modify true 7 (ev 6) .oneshot), .popped 1, .tau, .tau, .waitBegin, .ret 0 (.add true 7 (ev 5) .oneshot) .ok, .queued 1, .tau,
   .inserted 0 true 7 1 (ev 5) .oneshot, .tau, .begin 0 (.add true 7 (ev 5) .oneshot)]

example : ∃ f, FReach 1 FAny f seen := by
  have h : (runF 1 IocpF.init (before ++ middle ++ after)).map (·.2) = some seen := by decide +kernel
  obtain ⟨r, hr, h2⟩ := Option.map_eq_some_iff.1 h
  have := reach_runF .init (f' := r.1) (out := r.2) hr
  rw [h2, List.append_nil] at this
  exact ⟨r.1, this⟩

-- while `wait` holds the mutex, `modify` cannot take it
example : (runF 1 IocpF.init (before.take 16)).isSome = true ∧ runF 1 IocpF.init (before.take 16 ++ [.lock (.thread 0) 1]) = none := by
  constructor
  · decide +kernel
  · rw [← Option.isNone_iff_eq_none]; decide +kernel

/- A run with sections as steps for `atomic_runs_exist`, with an update and a deletion that fail. -/

/-- `Early`, decided. -/
def earlyAt (s : S) : Option (IocpF.Kind × PId) → Bool
  | some (.upd, p) | some (.del, p) =>
    match s.c.pk p with
    | .socket x => match x.status, x.op with
      | .polling _, .inFlight _ _ => true
      | .polling _, _ => false
      | _, _ => true
    | _ => true
  | _ => true

def early (s : S) : Act → Bool
  | .go t (some _) => earlyAt s (pcSite (s.pc t))
  | .wait (some _) => earlyAt s (phaseSite s.phase)
  | _ => true

theorem earlyAt_of {s o} (h : earlyAt s o = true) : EarlyAt s o := by
  intro k p x flags ho hk hx hst
  subst ho
  rcases hk with rfl | rfl
  · unfold earlyAt at h
    dsimp only at h
    rw [hx] at h
    dsimp only at h
    rw [hst] at h
    cases hop : x.op with
    | inFlight m c => exact ⟨m, c, rfl⟩
    | _ => rw [hop] at h; cases h
  · unfold earlyAt at h
    dsimp only at h
    rw [hx] at h
    dsimp only at h
    rw [hst] at h
    cases hop : x.op with
    | inFlight m c => exact ⟨m, c, rfl⟩
    | _ => rw [hop] at h; cases h

theorem early_of {s a} (h : early s a = true) : Early s a := by
  cases a with
  | go t fault => cases fault with | none => trivial | some e => exact earlyAt_of h
  | wait fault => cases fault with | none => trivial | some e => exact earlyAt_of h
  | _ => trivial

def runEarly (n : Nat) (s : S) : List Act → Option (S × List IObs)
  | [] => some (s, [])
  | a :: as => if early s a then (step n s a).bind fun r => (runEarly n r.1 as).map fun q => (q.1, q.2 ++ [r.2]) else none

theorem reach_runEarly {n} : ∀ {as s s' tr out}, Reach n Early s tr → runEarly n s as = some (s', out) → Reach n Early s' (out ++ tr)
  | [], s, s', tr, out, hf, h => by cases h; exact hf
  | a :: as, s, s', tr, out, hf, h => by
    simp only [runEarly] at h
    split at h
    · rename_i he
      obtain ⟨r, h1, h2⟩ := Option.bind_eq_some_iff.1 h
      obtain ⟨q, h3, h4⟩ := Option.map_eq_some_iff.1 h2
      cases h4
      rw [List.append_assoc]
      exact reach_runEarly (.step hf (early_of he) h1) h3
    · cases h

/-- Two sockets; the update of one fails, and later the cancellation of the operation of the other, while it is deleted. -/
def failing : List Act :=
  [.call 0 (.add true 7 (ev 5) .level)] ++ List.replicate 5 (.go 0 none) ++ [.call 0 (.add true 8 (ev 6) .level)] ++ List.replicate 5 (.go 0 none) ++
  [.waitBegin true 8, .wait none, .wait none, .wait none, .wait none, .wait none, .wait (some (.os 5)), .wait none,
   .call 0 (.delete true 7), .go 0 none, .go 0 (some (.os 6))]

example : ∃ s tr, Reach 1 Early s tr ∧ .polled 1 0x19b#32 ∈ tr ∧ .waitErr (.os 5) ∈ tr ∧ .deleted 0 true 7 1 (.err (.os 6)) ∈ tr := by
  have h : (runEarly 1 IocpM.init failing).map (fun r => decide (.polled 1 0x19b#32 ∈ r.2 ∧ .waitErr (.os 5) ∈ r.2 ∧
    .deleted 0 true 7 1 (.err (.os 6)) ∈ r.2)) = some true := by decide +kernel
  obtain ⟨r, hr, h2⟩ := Option.map_eq_some_iff.1 h
  have := reach_runEarly .init (s' := r.1) (out := r.2) hr
  rw [List.append_nil] at this
  exact ⟨r.1, r.2, this, of_decide_eq_true h2⟩

end Polling.C49
