import Verif.Model.Nested
import Verif.Proof.HandRun
import Verif.Proof.HandPort
import Verif.Proof.LiveEpoll
import Verif.Props.C43

/-! C68 (event ports): a poller can be watched by another event loop. -/

namespace Polling.C68
open Spec PortM Port PollFlags

/-- A whole `wait`, no call failing and no time passing. -/
def portWait (timeout : Option Duration) (cap : Nat) : List PortM.Act := [.waitBegin timeout cap, .compute, .getn, .finish]

/-- The descriptor is not readable: a `wait` without a timeout would sleep, and a `wait` with timeout zero returns nothing. -/
theorem port_silent (n : Nat) (s : PortM.S) (hph : s.phase = .idle) (hp : PortM.pollIn s.k = false) (cap : Nat) (hcap : cap > 0) :
    (∃ s1 obs, PortM.runActs n s [.waitBegin none cap, .compute] = some (s1, obs) ∧ PortM.step n s1 .getn = none) ∧
    (s.k.time ≤ unixMaxNs → ∃ s2 obs, PortM.runActs n s (portWait (some ⟨0, by decide⟩) cap) = some (s2, .waitOk 0 [] :: obs)) := by
  have hq : s.k.queue = [] := by simpa [PortM.pollIn] using hp
  have hc0 : cap ≠ 0 := by omega
  constructor
  · simp only [PortM.runActs, PortM.step, hph, if_neg hc0, Option.bind_some, Option.map_some]
    refine ⟨_, _, rfl, ?_⟩
    simp [hq, PortM.timeUp]
  · intro ht
    have h0 : s.k.time + 0 ≤ unixMaxNs := ht
    simp only [portWait, PortM.runActs, PortM.step, hph, if_neg hc0, Option.bind_some, instantCheckedAdd, if_pos h0, Option.map_some]
    rw [if_neg (by rw [hq]; simp), if_pos (by simp [PortM.timeUp, saturatingSince])]
    exact ⟨_, _, rfl⟩

/-- The descriptor is readable: every `wait` returns at once, whatever its timeout, and with events; with nothing only if more `notify`
calls were begun than `wait`s came back with nothing before their time was over. -/
theorem port_alarm (n : Nat) (P : PortM.Act → Prop) (s : PortM.S) (l : List (PortM.Act × Obs EventExtra))
    (h : Runs (fun s => ∃ cond, s = PortM.init cond) (PortM.step n) P s l) (hph : s.phase = .idle) (hp : PortM.pollIn s.k = true)
    (timeout : Option Duration) (cap : Nat) (hcap : cap > 0) :
    ∃ s2 m shown obs, PortM.runActs n s (portWait timeout cap) = some (s2, .waitOk m shown :: obs) ∧
      (shown = [] → earlyBacks none (l.filterMap PortM.handT) < notifiesT (l.filterMap PortM.handT)) := by
  have hq : s.k.queue ≠ [] := by
    intro he
    simp [PortM.pollIn, he] at hp
  have hc0 : cap ≠ 0 := by omega
  have hki := PortM.reach_ki (PortM.runs_reach h)
  have hpay := (PortM.reach_timed h).pay
  refine ⟨{ s with k := (PortM.getn s.k cap).2, notified := false }, (PortM.visible (PortM.getn s.k cap).1).length, PortM.visible (PortM.getn s.k cap).1,
    [.deliver (PortM.sources (PortM.getn s.k cap).1), .tau, .waitBegin], ?_, ?_⟩
  · simp only [portWait, PortM.runActs, PortM.step, hph, if_neg hc0, Option.bind_some, if_pos hq, Option.map_some]
    rfl
  · intro hv
    have := PortM.took hki hcap hq hv
    unfold PortM.Pay at hpay
    omega

/-- A source for which the program waits has a condition it asked for: the descriptor is readable. -/
theorem port_tells_events (n : Nat) (P) (s : PortM.S) (tr : List (Obs EventExtra)) (h : PortM.Reach n P s tr) (hph : s.phase = .idle)
    (fd : Fd) (key : Key) (r w : Bool) (mode : PollMode) (hask : Live.Asked (tr.flatMap Live.ofObs) fd key r w mode)
    (i : Nat) (hw : Live.Wants r w i) (hi : Reported (s.k.cond fd) i) : PortM.pollIn s.k = true := by
  obtain ⟨cu, hc, rfl, rfl, rfl, rfl, hm⟩ := Live.asked_current (PortM.reach_orderly h) (by rw [← PortM.reach_open h, hph]; rfl) hask
  have hreg := (PortM.reach_ki h).reg fd
  rw [hc] at hreg
  obtain ⟨hkey, hmode, ha⟩ := hreg
  have hf : cu.fired = false := by
    rcases hm with hm | ⟨_, hm⟩
    · rw [hmode] at hm; cases hm
    · exact hm
  have hq := C43.port_ready_is_queued n P s tr h fd cu hc hf i hi hw
  unfold PortM.pollIn
  cases he : s.k.queue with
  | nil => rw [he] at hq; cases hq
  | cons e q => rfl

/-- A `notify` returned and no `wait` since (and `port_send` never failed, see `C04.port_notification_lost`): the descriptor is readable,
or it will be as soon as the `notify` call of another thread has done its part.  Missing for the full property: that `port_send` may
fail. -/
theorem port_tells_notify_partial (n : Nat) (s : PortM.S) (tr : List (Obs EventExtra)) (h : PortM.Reach n PortM.SendWorks s tr) (hph : s.phase = .idle)
    (hn : owed tr = true) :
    PortM.pollIn s.k = true ∨ ∃ s1, PortM.step n s (.notifySend none) = some (s1, .notified) ∧ PortM.pollIn s1.k = true := by
  rcases (PortM.reach_ni (fun _ _ h => h) h).chan (.inr hn) with hc | hc | ⟨evs, hc⟩
  · left
    unfold PortM.pollIn
    cases he : s.k.queue with
    | nil => rw [he] at hc; cases hc
    | cons e q => rfl
  · right
    refine ⟨_, by simp only [PortM.step]; rw [if_pos hc], ?_⟩
    unfold PortM.pollIn
    dsimp only
    cases s.k.queue <;> rfl
  · rw [hph] at hc; cases hc

/-- What happens to an armed source while the port is watched: readable or not, and the number and the keys that a `wait` with timeout
zero returns; early empty-handed `wait`s and `notify` calls. -/
def portSummary (cond : Fd → Flags) (as : List PortM.Act) : Option (Bool × Option (Nat × List Key) × Nat × Nat) :=
  (runLog (PortM.step 3) (PortM.init cond) as []).map fun r =>
    (PortM.pollIn r.1.k,
     (PortM.runActs 3 r.1 (portWait (some ⟨0, by decide⟩) 8)).bind fun q => (match q.2 with | .waitOk n evs :: _ => some (n, evs.map Event.key) | _ => none),
     earlyBacks none (r.2.filterMap PortM.handT), notifiesT (r.2.filterMap PortM.handT))

/-- Runs that meet the hypotheses: nothing to report; an event; the event taken; the event withdrawn by `delete`; a notification. -/
example :
    portSummary (fun _ => 0#16) [.add 7 (Event.onlyReadable 11) .oneshot none] = some (false, some (0, []), 0, 0) ∧
    portSummary (fun _ => IN) [.add 7 (Event.onlyReadable 11) .oneshot none] = some (true, some (1, [11]), 0, 0) ∧
    portSummary (fun _ => IN) ([.add 7 (Event.onlyReadable 11) .oneshot none] ++ portWait none 8) = some (false, some (0, []), 0, 0) ∧
    portSummary (fun _ => IN) [.add 7 (Event.onlyReadable 11) .oneshot none, .delete 7 none] = some (false, some (0, []), 0, 0) ∧
    portSummary (fun _ => 0#16) [.notifyCas, .notifySend none] = some (true, some (0, []), 0, 1) := by
  refine ⟨?_, ?_, ?_, ?_, ?_⟩ <;> decide +kernel

end Polling.C68
