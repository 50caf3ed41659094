import Verif.Proof.KqFilters

/-! C64: on kqueue, events of processes and timers are those asked for. -/

namespace Polling.C64
open Kqueue KqSpec KqFilterSpec KqFilters

/-- An event of a process filter is only reported if the process did what was asked for, when it was asked for, since the filter
was first watched and since its last edge-triggered event. -/
theorem process_event_earned {c s tr} (h : Reach c s tr) {later t evs earlier} (he : tr = later ++ .k (.deliver t evs) :: earlier)
    {e : KEvent} (hm : e ∈ evs) {p : Nat} (hp : e.filter = .proc p) : earned earlier p = true := by
  obtain ⟨s0, a, s1, h0, hs⟩ := reach_split h later _ earlier he
  have hi := reach_inv h0
  obtain ⟨h1, h2⟩ := deliver_from hi hs hm (by rw [hp]; rfl)
  exact (hi.fi e.filter (by rw [hp]; rfl)).proc p hp h1 (.inr h2)

/-- The events of a timer since it was (re-)armed, including this one, took at least as long as its duration each. -/
theorem timer_not_early {c s tr} (hres : c.resets = true) (hac : ∀ i, c.k.autoClear (.timer i) = true) (h : Reach c s tr)
    {later t evs earlier} (he : tr = later ++ .k (.deliver t evs) :: earlier) {e : KEvent} (hm : e ∈ evs) {i : Nat}
    (hi : e.filter = .timer i) :
    ∃ d, asks earlier (.timer i) = some (.timer i d) ∧ (shots earlier (.timer i) + 1) * d ≤ elapsed earlier (.timer i) := by
  obtain ⟨s0, a, s1, h0, hs⟩ := reach_split h later _ earlier he
  have hinv := reach_inv h0
  obtain ⟨h1, h2⟩ := deliver_from hinv hs hm (by rw [hi]; rfl)
  have hf := hinv.fi e.filter (by rw [hi]; rfl)
  rw [hi] at hf h1 h2
  have hk := hf.known
  rw [h1] at hk
  obtain ⟨x, hx⟩ := Option.isSome_iff_exists.1 hk.symm
  have ht := (hf.told x hx).2
  cases x with
  | signal n => cases ht
  | process p op => cases ht
  | timer j d =>
    have : j = i := by injection ht
    subst this
    refine ⟨d, hx, ?_⟩
    have h3 := (hf.shot j rfl hres (hac j) h1).2 (.inr h2)
    have h4 := hf.timer j d hx
    have h5 := hf.time
    have h6 : (shots earlier (.timer j) + 1) * d ≤ expiries earlier (.timer j) * d := Nat.mul_le_mul_right d h3
    omega

/-- When a watched process does what is asked for, the next `kevent` with room for all active filters reports it. -/
theorem process_event_comes {c s tr} (h : Reach c s tr) {p op} (ha : asks tr (.proc p) = some (.process p op)) {t eof s' o}
    (hs : step c s (.did t p op eof) = some (s', o)) {u timed cap} (hu : u < c.k.threads) (hpc : s'.m.pc u = .wKev timed cap)
    (hroom : s'.m.k.queue.length ≤ cap) :
    ∃ s'' evs, step c s' (.base u .kevent) = some (s'', .k (.deliver u evs)) ∧ ∃ e ∈ evs, e.filter = .proc p := by
  have hi' := reach_inv (.step h hs)
  have hf := (reach_inv h).fi (.proc p) rfl
  have hk : (s.m.k.knotes (.proc p)).isSome = true := by rw [hf.known, ha]; rfl
  have hw : (s.note (.proc p)).wants op = true := by
    rw [(hf.told _ ha).1]; cases op <;> rfl
  simp only [step, hw, Bool.and_true] at hs
  rw [if_pos hk, Option.map_eq_some_iff] at hs
  obtain ⟨⟨m', o'⟩, h1, h2⟩ := hs
  injection h2 with h2 h3; subst h2
  obtain ⟨_, _, r3, r4, _⟩ := raise_other h1
  exact kevent_takes hi' hu hpc rfl (r4 hk) (by dsimp only; rw [r3]; rfl) hroom

/-- A process that does something else is not noticed. -/
theorem other_operations_ignored {c s tr} (h : Reach c s tr) {p op} (ha : asks tr (.proc p) ≠ some (.process p op)) {t eof s' o}
    (hs : step c s (.did t p op eof) = some (s', o)) : s' = s := by
  simp only [step] at hs
  split at hs
  · next hc =>
    simp only [Bool.and_eq_true] at hc
    have hf := (reach_inv h).fi (.proc p) rfl
    have hk := hf.known
    rw [hc.1] at hk
    obtain ⟨x, hx⟩ := Option.isSome_iff_exists.1 hk.symm
    obtain ⟨h1, h2⟩ := hf.told x hx
    rw [h1] at hc
    rw [hx, note_wants h2 hc.2] at ha
    exact absurd rfl ha
  · injection hs with hs; injection hs with hs _; exact hs.symm

/-- A timer whose next period is over can expire. -/
theorem timer_can_expire {c s tr} (h : Reach c s tr) {i d} (ha : asks tr (.timer i) = some (.timer i d))
    (hd : (expiries tr (.timer i) + 1) * d ≤ elapsed tr (.timer i)) {t} (ht : t < c.k.threads) :
    ∃ s', step c s (.expire t i) = some (s', .expired i) := by
  have hf := (reach_inv h).fi (.timer i) rfl
  have hk := hf.known
  rw [ha] at hk
  have h1 := hf.timer i d ha
  have h2 : s.note (.timer i) = .timer d := (hf.told _ ha).1
  rw [Nat.add_mul] at hd
  have h3 : s.since (.timer i) + d ≤ s.now := by omega
  simp only [step, h2]
  have hint : c.k.internal (.timer i) = false := special_internal c.k rfl
  rw [if_pos (by simp only [Bool.and_eq_true, decide_eq_true_eq]; exact ⟨hk, h3⟩)]
  unfold KqM.step
  rw [if_neg (by omega)]
  simp only [hint, Bool.false_eq_true, if_false]
  exact ⟨_, rfl⟩

/-- When a timer expires, the next `kevent` with room for all active filters reports it. -/
theorem timer_event_comes {c s tr} (h : Reach c s tr) {t i s' o} (hs : step c s (.expire t i) = some (s', o)) {u timed cap}
    (hu : u < c.k.threads) (hpc : s'.m.pc u = .wKev timed cap) (hroom : s'.m.k.queue.length ≤ cap) :
    ∃ s'' evs, step c s' (.base u .kevent) = some (s'', .k (.deliver u evs)) ∧ ∃ e ∈ evs, e.filter = .timer i := by
  have hi' := reach_inv (.step h hs)
  simp only [step] at hs
  split at hs
  · split at hs
    · next hc =>
      simp only [Bool.and_eq_true] at hc
      rw [Option.map_eq_some_iff] at hs
      obtain ⟨⟨m', o'⟩, h1, h2⟩ := hs
      injection h2 with h2 h3; subst h2
      obtain ⟨_, _, r3, r4, _⟩ := raise_other h1
      exact kevent_takes hi' hu hpc rfl (r4 hc.1) (by dsimp only; rw [r3]; rfl) hroom
    · cases hs
  · cases hs

/-! Examples. -/

/-- FreeBSD or macOS. -/
def bsd (resets : Bool) : Cfg :=
  ⟨{ user := true, notifFd := 3, keepMode := fun _ => false, recheck := false,
     autoClear := fun f => match f with | .timer _ => true | _ => false, validSignal := fun _ => true, threads := 2 }, resets⟩

/-- A call of the extension from begin to return. -/
def whole (t : Tid) (kind : Kind) (x : Ask) (key : Key) (mode : PollMode) : List Act :=
  match kind with
  | .add => [.callF t kind x key mode, .base t .src, .base t .src, .base t (.change none), .base t .eval]
  | .modify => [.callF t kind x key mode, .base t .src, .base t (.change none), .base t .eval]
  | .delete => [.callF t kind x key mode, .base t (.change none), .base t .eval, .base t .src, .base t .eval]

/-- A `wait` that takes events. -/
def waits (t : Tid) (timed : Bool) : List Act :=
  [.base t (.wait timed 8), .base t .kevent, .base t .finish]

/-- The filters of the events taken, oldest batch first. -/
def batches (tr : List PObs) : List (List Filter) :=
  tr.reverse.filterMap fun o => match o with
    | .k (.deliver _ evs) => some (evs.map KEvent.filter)
    | _ => none

def runs (c : Cfg) (as : List Act) : Option (List (List Filter)) :=
  (runActs c (init c fun _ => none) as).map fun r => batches r.2

/-- A fork is not reported to one who asks for the exit; the exit is, once. -/
example : runs (bsd true) (whole 0 .add (.process 9 .exit) 5 .oneshot ++ [.did 1 9 .fork false] ++ waits 0 true ++
    [.did 1 9 .exit true] ++ waits 0 true ++ waits 0 true) = some [[], [.proc 9], []] := by decide +kernel

/-- The second filter for the same process is refused; after `modify_filter` the other operation counts. -/
example : ((runActs (bsd true) (init (bsd true) fun _ => none) (whole 0 .add (.process 9 .exit) 5 .level ++
    [.callF 0 .add (.process 9 .fork) 6 .level, .base 0 .src])).map fun r => r.2.head?) =
      some (some (.k (.ret 0 (.addFilter (.process 9) 6 .level) (.res (.err .alreadyExists))))) := by decide +kernel

example : runs (bsd true) (whole 0 .add (.process 9 .exit) 5 .level ++ whole 0 .modify (.process 9 .fork) 6 .level ++
    [.did 1 9 .exit true] ++ waits 0 true ++ [.did 1 9 .fork false] ++ waits 0 true) = some [[], [.proc 9]] := by decide +kernel

/-- A timer of 30 fires once every 30, even in level mode. -/
example : runs (bsd true) (whole 0 .add (.timer 4 30) 5 .level ++ waits 0 true ++ [.tick 30, .expire 1 4] ++ waits 0 true ++
    waits 0 true ++ [.tick 35, .expire 1 4] ++ waits 0 true) = some [[], [.timer 4], [], [.timer 4]] := by decide +kernel

/-- It cannot expire before. -/
example : runs (bsd true) (whole 0 .add (.timer 4 30) 5 .level ++ [.tick 29, .expire 1 4]) = none := by decide +kernel

/-- The documentation says "Modifying the timeout after it has been added to the poller will reset it" (os/kqueue.rs:259): with a
kernel that drops the expiry, no event comes after the change; -/
example : runs (bsd true) (whole 0 .add (.timer 4 30) 5 .level ++ [.tick 30, .expire 1 4] ++ whole 0 .modify (.timer 4 100) 6 .level ++
    waits 0 true) = some [[]] := by decide +kernel

/-- without it, the old expiry is reported as an event of the new timer: `timer_not_early` needs its hypothesis. -/
theorem stale_expiry_without_reset : ∃ s tr t evs earlier, Reach (bsd false) s tr ∧ tr = .k (.deliver t evs) :: earlier ∧
    (∃ e ∈ evs, e.filter = .timer 4 ∧ e.udata = 6) ∧ asks earlier (.timer 4) = some (.timer 4 100) ∧
    elapsed earlier (.timer 4) = 0 := by
  have hrun : ∃ s tr t evs earlier, runActs (bsd false) (init (bsd false) fun _ => none) (whole 0 .add (.timer 4 30) 5 .level ++
      [.tick 30, .expire 1 4] ++ whole 0 .modify (.timer 4 100) 6 .level ++ [.base 0 (.wait true 8), .base 0 .kevent]) = some (s, tr) ∧
      tr = .k (.deliver t evs) :: earlier ∧ (∃ e ∈ evs, e.filter = .timer 4 ∧ e.udata = 6) ∧
      asks earlier (.timer 4) = some (.timer 4 100) ∧ elapsed earlier (.timer 4) = 0 :=
    ⟨_, _, _, _, _, rfl, rfl, by decide +kernel, by decide +kernel, by decide +kernel⟩
  obtain ⟨s, tr, t, evs, earlier, h1, h2, h3⟩ := hrun
  exact ⟨s, tr, t, evs, earlier, by simpa using run_reach (.init _) h1, h2, h3⟩

end Polling.C64
