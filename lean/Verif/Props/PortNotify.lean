import Verif.Props.PortCalls

/-! Event ports: notification (C04, C06, C35, C39). -/

namespace Polling.C04
open PortM Port Spec PollFlags

/-- In every reachable state of the event port poller in which the OS never refused to queue a notification, for any number of
threads and any interleaving (and any other failures): if a `wait` is in `port_getn` although a `notify` returned after the
last `wait` that returned, then the OS lets it return at once, or another `notify` call is in progress whose remaining step
makes it return.  Missing for the full property: a `port_send` that fails, see `port_notification_lost`. -/
theorem port_notification_not_lost_partial (n : Nat) (s : S) (tr : List (Obs EventExtra)) (h : Reach n SendWorks s tr) (hw : owed tr = true)
    (dl cap to t0) (hph : s.phase = .polling dl cap to t0) :
    (∃ s' evs, step n s .getn = some (s', .deliver evs)) ∨
    (∃ s1 o, s.inflight > 0 ∧ step n s (.notifySend none) = some (s1, o) ∧ ∃ s' evs, step n s1 .getn = some (s', .deliver evs)) := by
  rcases (reach_ni (fun _ _ h => h) h).chan (.inr hw) with hc | hc | ⟨evs, hc⟩
  · left
    have : s.k.queue ≠ [] := by intro h0; rw [h0] at hc; cases hc
    simp only [step, hph, if_pos this]
    exact ⟨_, _, rfl⟩
  · right
    refine ⟨_, _, hc, by simp only [step]; rw [if_pos hc], ?_⟩
    have : (s.k.queue ++ [notification]) ≠ [] := by simp
    simp only [step, hph, if_pos this]
    exact ⟨_, _, rfl⟩
  · rw [hph] at hc; cases hc

/-- Before and after `port_getn`, `wait` only takes steps that are always possible. -/
theorem port_wait_goes_on (n : Nat) (s : S) :
    (∀ dl cap, s.phase = .top dl cap → ∃ s' to, step n s .compute = some (s', .tau) ∧ s'.phase = .polling dl cap to s.k.time) ∧
    (∀ evs, s.phase = .taken evs → ∃ s', step n s .finish = some (s', .waitOk (visible evs).length (visible evs)) ∧ s'.phase = .idle) := by
  constructor
  · intro dl cap hph; simp only [step, hph]; exact ⟨_, _, rfl, rfl⟩
  · intro evs hph; simp only [step, hph]; exact ⟨_, rfl, rfl⟩

/-- The exception: `notify` fails once because the OS refuses to queue the notification (the caller sees the error); the
`notified` flag stays set.  Every later `notify` returns `Ok` without doing anything, and a `wait(None)` stays blocked: the
notification is owed, no call is in progress, and the OS cannot let the `wait` return, however much time passes. -/
theorem port_notification_lost :
    ∃ s tr, Reach 1 Any s tr ∧ owed tr = true ∧ s.inflight = 0 ∧ (∃ dl cap t0, s.phase = .polling dl cap none t0) ∧
      tr = [.tau, .waitBegin, .notified, .notifyErr (.os 11), .tau] ∧ step 1 s .getn = none ∧
      (∀ dt, ∃ s', step 1 s (.tick dt) = some (s', .tau) ∧ step 1 s' .getn = none) ∧
      step 1 s .notifyCas = some (s, .notified) := by
  have hr : ((runActs 1 (init (fun _ => 0#16)) [.notifyCas, .notifySend (some (.os 11)), .notifyCas, .waitBegin none 5, .compute]).map
      fun r => (r.2, r.1.phase, r.1.k.queue, r.1.inflight, r.1.notified)) =
      some ([.tau, .waitBegin, .notified, .notifyErr (.os 11), .tau], .polling none 5 none 0, [], 0, true) := by decide
  rw [Option.map_eq_some_iff] at hr
  obtain ⟨⟨s, o⟩, hr, he⟩ := hr
  simp only [Prod.mk.injEq] at he
  obtain ⟨rfl, hph, hq, hinf, hn⟩ := he
  refine ⟨s, _, run_reach (P := Any) (.init _) (fun _ _ _ => trivial) hr, by decide, hinf, ⟨_, _, _, hph⟩, rfl, ?_, ?_, ?_⟩
  · simp only [step, hph, hq]; simp [timeUp]
  · intro dt
    refine ⟨_, rfl, ?_⟩
    simp only [step, hph, hq]; simp [timeUp]
  · simp only [step]; rw [if_pos hn]

/-- A thread is blocked; a second one has set the flag but not yet sent; a third `notify` returns at once. -/
example : exTrace (fun _ => 0#16) [.waitBegin none 5, .compute, .notifyCas, .notifyCas, .notifySend none, .getn, .finish] =
    some [.waitOk 0 [], .deliver [], .notified, .notified, .tau, .tau, .waitBegin] ∧
   exTrace (fun _ => 0#16) [.waitBegin none 5, .compute, .getn] = none := by decide

end Polling.C04

namespace Polling.C39
open PortM Port Spec PollFlags

/-- A `wait` that failed (in any way, any number of times) does not disable notification: a `notify` after it still wakes a
later `wait` (the OS not refusing to queue notifications, see `C04.port_notification_lost`). -/
theorem port_failed_wait (n : Nat) (s : S) (tr mid earlier : List (Obs EventExtra)) (e : Err)
    (h : Reach n SendWorks s tr) (htr : tr = mid ++ .waitErr e :: earlier) (hn : .notified ∈ mid)
    (hmid : ∀ n evs, .waitOk n evs ∉ mid) (dl cap to t0) (hph : s.phase = .polling dl cap to t0) :
    (∃ s' evs, step n s .getn = some (s', .deliver evs)) ∨
    (∃ s1 o, s.inflight > 0 ∧ step n s (.notifySend none) = some (s1, o) ∧ ∃ s' evs, step n s1 .getn = some (s', .deliver evs)) := by
  refine C04.port_notification_not_lost_partial n s tr h ?_ dl cap to t0 hph
  subst htr
  clear h
  induction mid with
  | nil => cases hn
  | cons o mid ih =>
    cases o with
    | notified => rfl
    | waitOk n evs => exact absurd (by simp) (hmid n evs)
    | _ =>
      simp only [List.cons_append, owed]
      exact ih (by simpa using hn) (fun n evs hm => hmid n evs (by simp [hm]))

/-- A notification, a failing `wait`, another notification (coalesced), and a `wait` that returns. -/
example : exTrace (fun _ => 0#16) ([.notifyCas, .notifySend none, .waitBegin none 5, .compute, .getnFail (.os 14), .notifyCas] ++ waitActs 5) =
    some [.waitOk 0 [], .deliver [], .tau, .waitBegin, .notified, .waitErr (.os 14), .tau, .waitBegin, .notified, .tau] := by decide

end Polling.C39

namespace Polling.C06
open PortM Port Spec PollFlags

/-- One `notify` call without interference. -/
def portNotify (s : S) : List Act := if s.notified then [.notifyCas] else [.notifyCas, .notifySend none]

/-- `k` such calls, one after the other. -/
def portNotifies (n : Nat) : Nat → S → Option (S × List (Obs EventExtra))
  | 0, s => some (s, [])
  | k + 1, s => (runActs n s (portNotify s)).bind fun r => (portNotifies n k r.1).map fun q => (q.1, q.2 ++ r.2)

theorem portNotifies_ok {n : Nat} (hn : n > 0) (k : Nat) {s : S} (hph : s.phase = .idle) (hinf : s.inflight = 0)
    (hq : if s.notified then s.k.queue = [notification] else s.k.queue = []) :
    ∃ s' o, portNotifies n k s = some (s', o) ∧ s'.phase = .idle ∧ s'.inflight = 0 ∧ s'.k.time = s.k.time ∧
      (if s'.notified then s'.k.queue = [notification] else s'.k.queue = []) ∧ (k > 0 ∨ s.notified = true → s'.notified = true) := by
  induction k generalizing s with
  | zero => exact ⟨s, [], rfl, hph, hinf, rfl, hq, fun h => h.resolve_left (by omega)⟩
  | succ k ih =>
    by_cases hnt : s.notified = true
    · have h1 : runActs n s (portNotify s) = some (s, [.notified]) := by
        simp only [portNotify, if_pos hnt, runActs, step]; rfl
      obtain ⟨s', o, h2, h3, h4, h5, h6, h7⟩ := ih hph hinf hq
      refine ⟨s', o ++ [.notified], by simp only [portNotifies, h1, Option.bind_some, h2, Option.map_some], h3, h4, h5, h6, fun _ => h7 (.inr hnt)⟩
    · rw [if_neg hnt] at hq
      have h1 : runActs n s (portNotify s) = some ({ s with notified := true, inflight := 0, k := { s.k with queue := [notification] } }, [.notified, .tau]) := by
        simp only [portNotify, if_neg hnt, runActs, step, hinf]
        simp [hn, hq]
      obtain ⟨s', o, h2, h3, h4, h5, h6, h7⟩ := ih (s := { s with notified := true, inflight := 0, k := { s.k with queue := [notification] } }) hph rfl
        (by rw [if_pos rfl])
      refine ⟨s', o ++ [.notified, .tau], by simp only [portNotifies, h1, Option.bind_some, h2, Option.map_some], h3, h4, h5, h6, fun _ => h7 (.inr rfl)⟩

/-- Any number of notifications make exactly one `wait` return.  From every state between calls in which nothing is pending at
the port: after `k ≥ 1` calls of `notify`, a `wait` with any timeout returns - no time has to pass - with count 0 and no
events; and after it nothing is pending again and a `wait(None)` blocks. -/
theorem port_notify_coalesced_partial (n : Nat) (hn : n > 0) (s : S) (hph : s.phase = .idle) (hinf : s.inflight = 0)
    (hnt : s.notified = false) (hq : s.k.queue = []) (k : Nat) (hk : k > 0) (timeout : Option Duration) (cap cap' : Nat) (hcap : cap > 0) (hcap' : cap' > 0) :
    ∃ s1 o1 s2 o2 s3 o3, portNotifies n k s = some (s1, o1) ∧
      runActs n s1 [.waitBegin timeout cap, .compute, .getn, .finish] = some (s2, .waitOk 0 [] :: o2) ∧
      s2.phase = .idle ∧ s2.inflight = 0 ∧ s2.notified = false ∧ s2.k.queue = [] ∧ s2.k.time = s.k.time ∧
      runActs n s2 [.waitBegin none cap', .compute] = some (s3, o3) ∧ step n s3 .getn = none := by
  obtain ⟨s1, o1, h1, hp1, hi1, ht1, hq1, hn1⟩ := portNotifies_ok hn k hph hinf (by rw [hnt]; simpa using hq)
  have hn1 := hn1 (.inl hk)
  rw [if_pos hn1] at hq1
  have hc0 : cap ≠ 0 := by omega
  have hc0' : cap' ≠ 0 := by omega
  obtain ⟨c, rfl⟩ : ∃ c, cap = c + 1 := ⟨cap - 1, by omega⟩
  have hrun : ∃ s2 o2, runActs n s1 [.waitBegin timeout (c + 1), .compute, .getn, .finish] = some (s2, .waitOk 0 [] :: o2) ∧
      s2.phase = .idle ∧ s2.inflight = 0 ∧ s2.notified = false ∧ s2.k.queue = [] ∧ s2.k.time = s1.k.time := by
    simp only [runActs, step, hp1, if_neg hc0, Option.bind_some, hq1]
    rw [if_pos (by simp)]
    simp only [getn, hq1, List.take_succ_cons, List.take_nil, List.map_cons, List.map_nil, Option.bind_some, Option.map_some]
    exact ⟨_, _, rfl, rfl, hi1, rfl, by simp, rfl⟩
  obtain ⟨s2, o2, h2, hp2, hi2, hn2, hq2, ht2⟩ := hrun
  have hrun : ∃ s3 o3, runActs n s2 [.waitBegin none cap', .compute] = some (s3, o3) ∧ step n s3 .getn = none := by
    simp only [runActs, step, hp2, if_neg hc0', Option.bind_some, Option.map_some]
    refine ⟨_, _, rfl, ?_⟩
    simp [hq2, timeUp]
  obtain ⟨s3, o3, h3, h4⟩ := hrun
  exact ⟨s1, o1, s2, o2, s3, o3, h1, h2, hp2, hi2, hn2, hq2, ht2.trans ht1, h3, h4⟩

/-- Missing in `port_notify_coalesced_partial`: the case that events are pending when `notify` is called.  If they fill the
buffer, the first `wait` returns them, and the notification wakes a second `wait` as well. -/
theorem port_notify_wakes_twice :
    exTrace (fun _ => IN) ([.add 7 (Event.onlyReadable 1) .oneshot none, .notifyCas, .notifySend none] ++ waitActs 1 ++ waitActs 1) =
      some [.waitOk 0 [], .deliver [], .tau, .waitBegin, .waitOk 1 [⟨1, true, false, ⟨IN⟩⟩], .deliver [(7, ⟨1, true, false, ⟨IN⟩⟩)], .tau, .waitBegin,
        .notified, .tau, .reg 7 (Event.onlyReadable 1) .oneshot] := by decide

end Polling.C06

namespace Polling.C35
open PortM Port Spec PollFlags

/-- The buffers of all `wait` calls are large enough for everything that is queued. -/
def Roomy : S → Act → Prop
  | s, .getn => ∀ dl cap to t0, s.phase = .polling dl cap to t0 → s.k.queue.length ≤ cap
  | _, _ => True

/-- queued and about to be queued -/
def notifications (s : S) : Nat := s.k.queue.count notification + s.inflight

theorem count_filter_notif (l : List Entry) (fd : Fd) : (l.filter (· ≠ .fd fd)).count notification = l.count notification := by
  rw [List.count_filter]; simp [notification]

theorem count_wake (k : Kern) (fd : Fd) (key : Flags) : (wake k fd key).queue.count notification = k.queue.count notification := by
  have := (wake_env k fd key).2.2.2.1
  rw [← count_filter_notif _ fd, this, count_filter_notif]

theorem count_associate {k k' : Kern} {fd : Fd} {ev u} (h : associate none k fd ev u = (.ok, k')) :
    k'.queue.count notification = k.queue.count notification := by
  unfold associate at h
  injection h with _ h
  subst h
  rw [count_wake]
  exact count_filter_notif _ fd

/-- With room in the buffers, at most two more notifications than threads are queued or about to be queued, however many
`notify` calls are made.  Missing for the full property: buffers that are too small, see `port_queue_grows`. -/
theorem port_channel_bounded_partial (n : Nat) (s : S) (tr : List (Obs EventExtra)) (h : Reach n Roomy s tr) :
    s.k.queue.count notification ≤ n + 2 := by
  have key : s.inflight ≤ n ∧ notifications s + (if s.notified then 0 else 1) ≤ n + 2 ∧
      ∀ evs, s.phase = .taken evs → notifications s + (if s.notified then 0 else 1) ≤ n + 1 := by
    induction h with
    | init cond => exact ⟨Nat.zero_le _, by simp [notifications, init], nofun⟩
    | @step s tr a s' o hr hp hs ih =>
      obtain ⟨i1, i2, i3⟩ := ih
      have same : s'.inflight = s.inflight → s'.k.queue.count notification = s.k.queue.count notification → s'.notified = s.notified →
          (∀ evs, s'.phase = .taken evs → s.phase = .taken evs) →
          s'.inflight ≤ n ∧ notifications s' + (if s'.notified then 0 else 1) ≤ n + 2 ∧
            ∀ evs, s'.phase = .taken evs → notifications s' + (if s'.notified then 0 else 1) ≤ n + 1 := by
        intro h1 h2 h3 h4
        unfold notifications at *
        rw [h1, h2, h3]
        exact ⟨i1, i2, fun evs h => i3 evs (h4 evs h)⟩
      cases a with
      | add fd ev mode fault =>
        simp only [step] at hs
        split at hs
        · cases hs; exact same rfl rfl rfl fun _ h => h
        · rcases hm : PortM.add fault s.k fd ev mode with ⟨r, k⟩
          rw [hm] at hs
          rcases add_cases hm with ⟨rfl, rfl, ha⟩ | ⟨⟨e, rfl⟩, rfl⟩ <;> cases hs
          · exact same rfl (count_associate ha) rfl fun _ h => h
          · exact same rfl rfl rfl fun _ h => h
      | modify fd ev mode fault =>
        simp only [step] at hs
        split at hs
        · cases hs; exact same rfl rfl rfl fun _ h => h
        · rcases hm : PortM.modify fault s.k fd ev mode with ⟨r, k⟩
          rw [hm] at hs
          rcases add_cases hm with ⟨rfl, rfl, ha⟩ | ⟨⟨e, rfl⟩, rfl⟩ <;> cases hs
          · exact same rfl (count_associate ha) rfl fun _ h => h
          · exact same rfl rfl rfl fun _ h => h
      | delete fd fault =>
        simp only [step] at hs
        split at hs
        · cases hs
        · rcases hm : PortM.delete fault s.k fd with ⟨r, k⟩
          rw [hm] at hs
          rcases delete_cases hm with ⟨rfl, rfl | ⟨rfl, _⟩⟩ | ⟨⟨e, rfl⟩, rfl⟩ <;> cases hs
          · exact same rfl (count_filter_notif _ fd) rfl fun _ h => h
          · exact same rfl rfl rfl fun _ h => h
          · exact same rfl rfl rfl fun _ h => h
      | notifyCas =>
        simp only [step] at hs
        split at hs
        · cases hs; exact same rfl rfl rfl fun _ h => h
        · next hnt =>
          split at hs <;> cases hs
          next hlt =>
          rw [if_neg hnt] at i2 i3
          unfold notifications at *
          dsimp only
          refine ⟨by omega, by simp; omega, fun evs h => ?_⟩
          have := i3 evs h
          simp; omega
      | notifySend fault =>
        simp only [step] at hs
        split at hs
        rotate_left
        · cases hs
        unfold notifications at *
        cases fault with
        | some e =>
          cases hs
          dsimp only
          exact ⟨by omega, by omega, fun evs h => by have := i3 evs h; omega⟩
        | none =>
          cases hs
          dsimp only
          rw [List.count_append, List.count_singleton_self]
          exact ⟨by omega, by omega, fun evs h => by have := i3 evs h; omega⟩
      | waitBegin timeout cap =>
        simp only [step] at hs
        repeat' split at hs
        all_goals cases hs
        exact same rfl rfl rfl nofun
      | waitBusy =>
        simp only [step] at hs
        split at hs <;> cases hs
        exact same rfl rfl rfl fun _ h => h
      | compute =>
        simp only [step] at hs
        split at hs <;> cases hs
        exact same rfl rfl rfl nofun
      | getn =>
        simp only [step] at hs
        split at hs
        rotate_left
        · cases hs
        next dl cap to t0 hph =>
        have hroom : s.k.queue.length ≤ cap := hp dl cap to t0 hph
        have bound : ∀ b : Bool, (if b then 0 else 1) ≤ 1 := by intro b; cases b <;> simp
        have := bound s.notified
        split at hs
        · cases hs
          unfold notifications getn
          dsimp only
          rw [List.drop_eq_nil_of_le hroom, List.count_nil]
          exact ⟨i1, by omega, fun _ _ => by omega⟩
        · next hq =>
          have hq : s.k.queue = [] := Classical.not_not.1 hq
          split at hs <;> cases hs
          unfold notifications
          dsimp only
          rw [hq, List.count_nil]
          exact ⟨i1, by omega, fun _ _ => by omega⟩
      | getnFail e =>
        simp only [step] at hs
        split at hs
        rotate_left
        · cases hs
        split at hs <;> cases hs <;> exact same rfl rfl rfl nofun
      | finish =>
        simp only [step] at hs
        split at hs <;> cases hs
        next evs hph =>
        have := i3 evs hph
        unfold notifications at *
        dsimp only
        exact ⟨i1, by simp; omega, nofun⟩
      | setReady fd flags key =>
        simp only [step] at hs
        split at hs
        · cases hs
        · cases hs; exact same rfl (count_wake { s.k with cond := fun x => if x = fd then flags else s.k.cond x } fd key) rfl fun _ h => h
      | tick dt => simp only [step] at hs; cases hs; exact same rfl rfl rfl fun _ h => h
  have := key.2.1
  unfold notifications at this
  omega

/-- One `notify`, then a `wait` with room for one event. -/
theorem port_cycle {s : S} {e : Entry} {q : List Entry} (hph : s.phase = .idle) (hinf : s.inflight = 0) (hnt : s.notified = false)
    (hq : s.k.queue = e :: q) :
    ∃ s' o, runActs 1 s ([.notifyCas, .notifySend none] ++ waitActs 1) = some (s', o) ∧ s'.phase = .idle ∧ s'.inflight = 0 ∧
      s'.notified = false ∧ s'.k.queue = q ++ [notification] ∧ s'.k.cond = s.k.cond := by
  simp only [waitActs, List.cons_append, List.nil_append, runActs, step, hnt, hinf, hph, getn]
  simp [hq]

/-- Notifications are rotated to the end of the queue. -/
theorem port_rotate (j m : Nat) {s : S} {tr : List (Obs EventExtra)} (h : Reach 1 Any s tr) (hph : s.phase = .idle) (hinf : s.inflight = 0)
    (hnt : s.notified = false) (hq : s.k.queue = List.replicate j notification ++ .fd 7 :: List.replicate m notification) (hc : s.k.cond 7 = IN) :
    ∃ s' tr', Reach 1 Any s' tr' ∧ s'.phase = .idle ∧ s'.inflight = 0 ∧ s'.notified = false ∧
      s'.k.queue = .fd 7 :: List.replicate (m + j) notification ∧ s'.k.cond 7 = IN := by
  induction j generalizing s tr m with
  | zero => exact ⟨s, tr, h, hph, hinf, hnt, by simpa using hq, hc⟩
  | succ j ih =>
    obtain ⟨s1, o, hr, h1, h2, h3, h4, h5⟩ := port_cycle hph hinf hnt (by rw [hq, List.replicate_succ, List.cons_append])
    have hr' := run_reach h (fun _ _ _ => trivial) hr
    obtain ⟨s2, tr2, g1, g2, g3, g4, g5, g6⟩ := ih (m + 1) hr' h1 h2 h3 (by rw [h4]; simp [List.replicate_succ']) (by rw [h5]; exact hc)
    exact ⟨s2, tr2, g1, g2, g3, g4, by rw [g5]; congr 2; omega, g6⟩

/-- Where the property fails: if the buffer has room for one event only and one source is always ready, the number of queued
notifications grows beyond any bound, a single thread calling `notify`, `wait` and `modify` in turn; no call is in progress
in the state reached. -/
theorem port_queue_grows (N : Nat) : ∃ s tr, Reach 1 Any s tr ∧ s.phase = .idle ∧ s.inflight = 0 ∧ s.k.queue.count notification ≥ N := by
  have key : ∃ s tr, Reach 1 Any s tr ∧ s.phase = .idle ∧ s.inflight = 0 ∧ s.notified = false ∧
      s.k.queue = .fd 7 :: List.replicate N notification ∧ s.k.cond 7 = IN := by
    induction N with
    | zero =>
      refine ⟨_, _, (Reach.init (fun _ => IN)).step (a := .add 7 (Event.onlyReadable 1) .oneshot none) trivial rfl, rfl, rfl, rfl, rfl, rfl⟩
    | succ N ih =>
      obtain ⟨s, tr, hr, hph, hinf, hnt, hq, hc⟩ := ih
      obtain ⟨s1, o, hrun, h1, h2, h3, h4, h5⟩ := port_cycle hph hinf hnt hq
      have hr1 := run_reach hr (fun _ _ _ => trivial) hrun
      rw [← List.replicate_succ'] at h4
      have hnm : Entry.fd 7 ∉ List.replicate (N + 1) notification := by simp [List.mem_replicate, notification]
      have hflt : (List.replicate (N + 1) notification).filter (· ≠ .fd 7) = List.replicate (N + 1) notification := by
        rw [List.filter_eq_self]
        intro a ha
        rw [(List.mem_replicate.1 ha).2]
        simp [notification]
      have hstep : ∃ s2, step 1 s1 (.modify 7 (Event.onlyReadable 1) .oneshot none) = some (s2, .reg 7 (Event.onlyReadable 1) .oneshot) ∧
          s2.phase = .idle ∧ s2.inflight = 0 ∧ s2.notified = false ∧
          s2.k.queue = List.replicate (N + 1) notification ++ .fd 7 :: List.replicate 0 notification ∧ s2.k.cond 7 = IN := by
        have hkey : (Event.onlyReadable 1 : Event EventExtra).key ≠ NOTIFY_KEY := by decide
        have hr0 : IN &&& (assocFlags (Event.onlyReadable 1) ||| ALWAYS) ≠ 0#16 := by decide
        simp only [step, if_neg hkey, PortM.modify, associate, drop, wake, if_true, h4, h5, hc]
        rw [hflt, if_neg hr0, if_neg hnm]
        refine ⟨_, rfl, h1, h2, h3, rfl, ?_⟩
        exact hc
      obtain ⟨s2, hs2, k1, k2, k3, k4, k5⟩ := hstep
      obtain ⟨s3, tr3, g1, g2, g3, g4, g5, g6⟩ := port_rotate (N + 1) 0 (hr1.step (P := Any) trivial hs2) k1 k2 k3 k4 k5
      exact ⟨s3, tr3, g1, g2, g3, g4, by rw [g5, Nat.zero_add], g6⟩
  obtain ⟨s, tr, h1, h2, h3, _, hq, _⟩ := key
  refine ⟨s, tr, h1, h2, h3, ?_⟩
  rw [hq, List.count_cons, List.count_replicate_self]
  omega

end Polling.C35
