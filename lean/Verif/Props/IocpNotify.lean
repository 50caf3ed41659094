import Verif.Proof.IocpSolo
import Verif.Props.IocpSync

/-! IOCP: notification (C04, C06, C35, C39). -/

namespace Polling.C04
open IocpM Iocp IocpSpec

/-- In every reachable state of the IOCP poller in which the OS never refused to post a notification (nor an operation while
completions were processed), for any number of threads and any interleaving: if a `wait` is in progress (and has not failed)
although a `notify` returned after the last `wait` that returned, then this `wait`, running alone, returns - at once, or as
soon as another `notify` call in progress has done its remaining step.  It never has to wait for anything else, however many
completions of other sources are queued and whatever it has to do for them.  Missing for the full property: refused
operations, see `iocp_notification_lost`. -/
theorem iocp_notification_not_lost_partial (n : Nat) (P) (hP : ∀ s a, P s a → Posts s a) (s : S) (tr : List IObs) (h : Reach n P s tr)
    (hw : owed tr = true) (hi : s.phase ≠ .idle) (hf : ∀ w e, s.phase ≠ .fail w e) :
    Returns n s ∨ ∃ t s1, s.pc t = .notify ∧ step n s (.notifyPost t none) = some (s1, .notified t) ∧ Returns n s1 := by
  have hnd := noFail (fun _ _ h => (hP _ _ h).noFail) h
  rcases reach_ni hP h (.inr hw) with hc | hc | ⟨t, ht⟩
  · exact .inl (solo_returns h.any hi hf hnd (.inl hc))
  · exact .inl (solo_returns h.any hi hf hnd (.inr hc))
  · right
    have hs : step n s (.notifyPost t none) =
        some ({ s with c := { s.c with port := s.c.port ++ [NOTIFIER] }, pc := upd s.pc t .out }, .notified t) := by
      simp only [step, ht]
    refine ⟨t, _, ht, hs, solo_returns (h.any.step (P := Any) trivial hs) hi hf hnd (.inr ?_)⟩
    simp [entries]

/-- A notification arrives at a blocked `wait` together with completions that lead to no event: two sockets are deleted, and
the buffer has room for one completion.  The `wait` takes three rounds and returns. -/
example : exTrace (addActs 0 true 7 (Event.onlyReadable 5) .oneshot ++ addActs 0 true 8 (Event.onlyReadable 6) .oneshot ++ blockActs 2 1 ++
      delActs 0 true 7 ++ delActs 0 true 8 ++ [.complete 1 .cancelled, .complete 2 .cancelled, .notifyCas 1, .notifyPost 1 none] ++
      [.get, .wait none, .wait none, .decide false, .wait none, .wait none] ++
      [.get, .wait none, .wait none, .decide false, .wait none, .wait none] ++ [.get, .wait none, .wait none, .decide false, .wait none]) =
    some [.waitOk 0 [], .notified 1, .notifyBegin 1, .deleted 0 true 8 2 .ok, .removed 0 true 8 2, .begin 0 (.delete true 8), .deleted 0 true 7 1 .ok,
      .removed 0 true 7 1, .begin 0 (.delete true 7), .polled 2 411#32, .popped 2, .polled 1 411#32, .popped 1, .waitBegin,
      .ret 0 (.add true 8 (Event.onlyReadable 6) .oneshot) .ok, .queued 2, .inserted 0 true 8 2 (Event.onlyReadable 6) .oneshot,
      .begin 0 (.add true 8 (Event.onlyReadable 6) .oneshot),
      .ret 0 (.add true 7 (Event.onlyReadable 5) .oneshot) .ok, .queued 1, .inserted 0 true 7 1 (Event.onlyReadable 5) .oneshot,
      .begin 0 (.add true 7 (Event.onlyReadable 5) .oneshot)] := by decide +kernel

/-- The state in which a notification is lost: a `wait(None)` is blocked although a notification is owed; nobody is inside a
call; nothing is queued, so the OS cannot let it return; and further `notify` calls do nothing. -/
def Lost (s : S) (tr : List IObs) : Prop :=
  owed tr = true ∧ (∃ w, s.phase = .port w ∧ w.timed = false) ∧ (∀ t, s.pc t = .out) ∧ s.c.port = [] ∧ step 3 s .get = none ∧
    ∀ t, t < 3 → step 3 s (.notifyCas t) = some (s, .notifySeen t)

/-- A `wait(None)` that starts when the flag is set and nothing is queued is blocked; a `notify` before it does nothing. -/
theorem lost_from {s tr} (h : Reach 3 Any s tr) (hph : s.phase = .idle) (hpo : s.c.port = []) (hn : s.notified = true) (hpc : ∀ t, s.pc t = .out) :
    ∃ s' obs, Reach 3 Any s' (obs ++ .waitBegin :: .notifySeen 1 :: tr) ∧ OnlyUpdates obs ∧ Lost s' (obs ++ .waitBegin :: .notifySeen 1 :: tr) := by
  have hcas : ∀ t, t < 3 → step 3 s (.notifyCas t) = some (s, .notifySeen t) := by
    intro t ht
    simp only [step, hpc t, hn, if_true]
    rw [if_neg (by omega)]
  have h1 := h.step (P := Any) trivial (hcas 1 (by omega))
  have hs2 : step 3 s (.waitBegin false 4) = some ({ s with phase := .top false 4 }, .waitBegin) := by
    simp only [step, hph]; rfl
  have h2 := h1.step (P := Any) trivial hs2
  obtain ⟨s3, obs, r3, u3, p3, f3, q3⟩ := solo_top h2 rfl
  have hpo3 : s3.c.port = [] := f3.2.2.trans hpo
  have hpc3 : s3.pc = s.pc := f3.2.1
  have hn3 : s3.notified = true := f3.1.trans hn
  refine ⟨s3, obs, r3.reach h2, u3, ?_, ⟨_, p3, rfl⟩, fun t => by rw [hpc3]; exact hpc t, hpo3, ?_, ?_⟩
  · clear r3
    induction obs with
    | nil => rfl
    | cons o obs ih =>
      rw [List.cons_append, owed_noNotify (u3 o (by simp)).noNotify]
      exact ih fun o ho => u3 o (by simp [ho])
  · simp only [step, p3, hpo3]; simp
  · intro t ht
    simp only [step, hpc3, hpc t, hn3, if_true]
    rw [if_neg (by omega)]

/-- The exceptions.  (1) The OS refuses to post a notification: that `notify` reports the error, but all later ones do nothing
and return `Ok`.  (2) A `wait` whose update the OS refuses drops the completions it has taken, the notification included; it
reports the error, but all later `notify` calls do nothing and return `Ok`.  In both cases a later `wait(None)` stays blocked. -/
theorem iocp_notification_lost :
    (∃ s obs, Reach 3 Any s (obs ++ [.waitBegin, .notifySeen 1, .notifyErr 0 (.os 8), .notifyBegin 0]) ∧ OnlyUpdates obs ∧
      Lost s (obs ++ [.waitBegin, .notifySeen 1, .notifyErr 0 (.os 8), .notifyBegin 0])) ∧
    ∃ s obs tr, Reach 3 Any s (obs ++ .waitBegin :: .notifySeen 1 :: .waitErr (.os 8) :: tr) ∧ OnlyUpdates obs ∧ owed tr = true ∧
      Lost s (obs ++ .waitBegin :: .notifySeen 1 :: .waitErr (.os 8) :: tr) := by
  constructor
  · obtain ⟨s, tr, h, hck⟩ := witness [.notifyCas 0, .notifyPost 0 (some (.os 8))]
      (fun s tr => decide (tr = [.notifyErr 0 (.os 8), .notifyBegin 0]) && decide (s.phase = .idle) && decide (s.c.port = []) && s.notified && quietB s) (by decide)
    simp only [Bool.and_eq_true, decide_eq_true_eq] at hck
    obtain ⟨⟨⟨⟨rfl, h1⟩, h2⟩, h3⟩, h4⟩ := hck
    exact lost_from h h1 h2 h3 (quiet_pc h h4)
  · obtain ⟨s, tr, h, h1, h2, h3, h4, _, _, how, _, ⟨tr', rfl, _, _⟩, _⟩ := drop_run
    obtain ⟨s', obs, r1, r2, r3⟩ := lost_from h h1 h2 h3 h4
    exact ⟨s', obs, tr', r1, r2, how, r3⟩

end Polling.C04

namespace Polling.C39
open IocpM Iocp IocpSpec

/-- A `wait` that failed (in any way, any number of times, but not while it processed completions) does not disable
notification: if a `notify` returned after it, then a later `wait` returns, as in `C04.iocp_notification_not_lost_partial`. -/
theorem iocp_failed_wait_partial (n : Nat) (P) (hP : ∀ s a, P s a → Posts s a) (s : S) (tr mid earlier : List IObs) (e : Err) (h : Reach n P s tr)
    (htr : tr = mid ++ .waitErr e :: earlier) (t : Tid) (hn : .notified t ∈ mid ∨ .notifySeen t ∈ mid) (hmid : ∀ n evs, .waitOk n evs ∉ mid)
    (hi : s.phase ≠ .idle) (hf : ∀ w e, s.phase ≠ .fail w e) :
    Returns n s ∨ ∃ t s1, s.pc t = .notify ∧ step n s (.notifyPost t none) = some (s1, .notified t) ∧ Returns n s1 := by
  refine C04.iocp_notification_not_lost_partial n P hP s tr h ?_ hi hf
  subst htr
  clear h
  induction mid with
  | nil => rcases hn with hn | hn <;> cases hn
  | cons o mid ih =>
    cases o with
    | notified => rfl
    | notifySeen => rfl
    | waitOk n evs => exact absurd (by simp) (hmid n evs)
    | _ =>
      simp only [List.cons_append, owed]
      exact ih (by simpa using hn) (fun n evs hm => hmid n evs (by simp [hm]))

/-- A notification, a failing `wait`, another notification (coalesced), and a `wait` that returns. -/
example : exTrace ([.notifyCas 0, .notifyPost 0 none] ++ blockActs 0 4 ++ [.getFail (.os 8), .wait none, .notifyCas 0] ++ blockActs 0 4 ++
      [.get, .wait none, .wait none, .decide false, .wait none]) =
    some [.waitOk 0 [], .waitBegin, .notifySeen 0, .waitErr (.os 8), .waitBegin, .notified 0, .notifyBegin 0] := by decide +kernel

/-- Where the property fails: a `wait` returns an error because the OS refused an update of a registration; the `notify`
afterwards returns `Ok` without effect, and the next `wait(None)` stays blocked. -/
theorem iocp_failed_wait_disables_notify :
    ∃ s obs tr, Reach 3 Any s (obs ++ .waitBegin :: .notifySeen 1 :: .waitErr (.os 8) :: tr) ∧ OnlyUpdates obs ∧
      C04.Lost s (obs ++ .waitBegin :: .notifySeen 1 :: .waitErr (.os 8) :: tr) := by
  obtain ⟨s, obs, tr, h1, h2, _, h3⟩ := C04.iocp_notification_lost.2
  exact ⟨s, obs, tr, h1, h2, h3⟩

end Polling.C39

namespace Polling.C06
open IocpM Iocp IocpSpec

/-- One `notify` call by thread `t` without interference. -/
def iocpNotify (s : S) (t : Tid) : List Act := if s.notified then [.notifyCas t] else [.notifyCas t, .notifyPost t none]

/-- Such calls by these threads, one after the other. -/
def iocpNotifies (n : Nat) : List Tid → S → Option (S × List IObs)
  | [], s => some (s, [])
  | t :: ts, s => (runActs n s (iocpNotify s t)).bind fun r => (iocpNotifies n ts r.1).map fun q => (q.1, q.2 ++ r.2)

theorem iocpNotifies_set {n : Nat} {s : S} (hpc : ∀ t, s.pc t = .out) (hn : s.notified = true) (ts : List Tid) (ht : ∀ t ∈ ts, t < n) :
    ∃ o, iocpNotifies n ts s = some (s, o) := by
  induction ts with
  | nil => exact ⟨[], rfl⟩
  | cons t ts ih =>
    obtain ⟨o, ho⟩ := ih fun t h => ht t (by simp [h])
    have : runActs n s (iocpNotify s t) = some (s, [.notifySeen t]) := by
      simp only [iocpNotify, if_pos hn, runActs, step, hpc t, hn, if_true]
      rw [if_neg (by have := ht t (by simp); omega)]
      rfl
    exact ⟨o ++ [.notifySeen t], by simp only [iocpNotifies, this, Option.bind_some, ho, Option.map_some]⟩

/-- The steps of a `wait` that takes one completion, without interference and with no update in the queue. -/
def waitOne (timed : Bool) (cap : Nat) : List Act :=
  [.waitBegin timed cap, .wait none, .wait none, .wait none, .get, .wait none, .wait none, .decide false, .wait none]

theorem wait_one {n : Nat} {s : S} {e : PId} {evs : List (Event EventExtra)} {timed : Bool} {cap : Nat} (hph : s.phase = .idle) (hpe : s.c.pending = [])
    (hcap : cap ≠ 0) (ht : s.c.port.take cap = [e]) (hev : (s.c.pk e = .wakeup ∧ evs = []) ∨ ∃ ev, s.c.pk e = .custom ev ∧ evs = [ev]) :
    ∃ o, runActs n s (waitOne timed cap) =
      some ({ s with c := { s.c with port := s.c.port.drop cap, polling := false }, notified := false, phase := .idle },
        .waitOk (visible evs).length (visible evs) :: o) := by
  have hne : s.c.port ≠ [] := by intro h0; rw [h0] at ht; simp at ht
  have e1 : step n s (.waitBegin timed cap) = some ({ s with phase := .top timed cap }, .waitBegin) := by
    simp only [step, hph, if_neg hcap]
  have e2 : step n { s with phase := .top timed cap } (.wait none) = some ({ s with phase := .start ⟨timed, cap, false, 0, []⟩ }, .tau) := rfl
  have e3 : step n { s with phase := .start ⟨timed, cap, false, 0, []⟩ } (.wait none) =
      some ({ s with c := { s.c with polling := true }, phase := .pop ⟨timed, cap, false, 0, []⟩ }, .tau) := rfl
  have e4 : step n { s with c := { s.c with polling := true }, phase := .pop ⟨timed, cap, false, 0, []⟩ } (.wait none) =
      some ({ s with c := { s.c with polling := true }, phase := .port ⟨timed, cap, false, 0, []⟩ }, .tau) := by
    simp only [step, goWait, hpe]
  have e5 : step n { s with c := { s.c with polling := true }, phase := .port ⟨timed, cap, false, 0, []⟩ } .get =
      some ({ s with c := { s.c with polling := true, port := s.c.port.drop cap }, phase := .unpoll ⟨timed, cap, false, 0, []⟩ [e] }, .tau) := by
    simp only [step]; rw [if_pos (.inl hne), ht]
  have e6 : step n { s with c := { s.c with polling := true, port := s.c.port.drop cap }, phase := .unpoll ⟨timed, cap, false, 0, []⟩ [e] } (.wait none) =
      some ({ s with c := { s.c with polling := false, port := s.c.port.drop cap }, phase := .feed ⟨timed, cap, false, 0, []⟩ [e] }, .tau) := rfl
  rcases hev with ⟨hpk, rfl⟩ | ⟨ev, hpk, rfl⟩
  · have e7 : step n { s with c := { s.c with polling := false, port := s.c.port.drop cap }, phase := .feed ⟨timed, cap, false, 0, []⟩ [e] } (.wait none) =
        some ({ s with c := { s.c with polling := false, port := s.c.port.drop cap }, phase := .feed ⟨timed, cap, true, 0, []⟩ [] }, .tau) := by
      simp only [step, goWait, feed, hpk]
    have e8 : step n { s with c := { s.c with polling := false, port := s.c.port.drop cap }, phase := .feed ⟨timed, cap, true, 0, []⟩ [] } (.decide false) =
        some ({ s with c := { s.c with polling := false, port := s.c.port.drop cap }, phase := .fin [] }, .tau) := by
      simp [step]
    have e9 : step n { s with c := { s.c with polling := false, port := s.c.port.drop cap }, phase := .fin [] } (.wait none) =
        some ({ s with c := { s.c with port := s.c.port.drop cap, polling := false }, notified := false, phase := .idle }, .waitOk 0 []) := rfl
    simp only [waitOne, runActs, e1, e2, e3, e4, e5, e6, e7, e8, e9, Option.bind_some, Option.map_some]
    exact ⟨_, rfl⟩
  · have e7 : step n { s with c := { s.c with polling := false, port := s.c.port.drop cap }, phase := .feed ⟨timed, cap, false, 0, []⟩ [e] } (.wait none) =
        some ({ s with c := { s.c with polling := false, port := s.c.port.drop cap }, phase := .feed ⟨timed, cap, false, 1, [ev]⟩ [] }, .received e ev) := by
      simp only [step, goWait, feed, hpk]; rfl
    have e8 : step n { s with c := { s.c with polling := false, port := s.c.port.drop cap }, phase := .feed ⟨timed, cap, false, 1, [ev]⟩ [] } (.decide false) =
        some ({ s with c := { s.c with polling := false, port := s.c.port.drop cap }, phase := .fin [ev] }, .tau) := by
      simp [step]
    have e9 : step n { s with c := { s.c with polling := false, port := s.c.port.drop cap }, phase := .fin [ev] } (.wait none) =
        some ({ s with c := { s.c with port := s.c.port.drop cap, polling := false }, notified := false, phase := .idle },
          .waitOk (visible [ev]).length (visible [ev])) := rfl
    simp only [waitOne, runActs, e1, e2, e3, e4, e5, e6, e7, e8, e9, Option.bind_some, Option.map_some]
    exact ⟨_, rfl⟩

/-- Any number of notifications by any threads post exactly one packet, and make exactly one `wait` return.  From every state
between calls in which nothing is in the port and no update is queued: after `notify` calls by at least one thread, a `wait`
(with a timeout or not) returns with count 0 and no events; and after it nothing is in the port again, and a `wait(None)`
blocks. -/
theorem iocp_notify_coalesced_partial (n : Nat) (s : S) (hph : s.phase = .idle) (hpc : ∀ t, s.pc t = .out) (hnt : s.notified = false)
    (hq : s.c.port = []) (hpe : s.c.pending = []) (hwk : s.c.pk NOTIFIER = .wakeup) (ts : List Tid) (hts : ts ≠ []) (ht : ∀ t ∈ ts, t < n)
    (timed : Bool) (cap cap' : Nat) (hcap : cap > 0) (hcap' : cap' > 0) :
    ∃ s1 o1 s2 o2 s3 o3, iocpNotifies n ts s = some (s1, o1) ∧ s1.c.port = [NOTIFIER] ∧
      runActs n s1 (waitOne timed cap) = some (s2, .waitOk 0 [] :: o2) ∧
      s2.phase = .idle ∧ s2.notified = false ∧ s2.c.port = [] ∧
      runActs n s2 [.waitBegin false cap', .wait none, .wait none, .wait none] = some (s3, o3) ∧ step n s3 .get = none := by
  obtain ⟨t, ts, rfl⟩ : ∃ t ts', ts = t :: ts' := by
    cases ts with
    | nil => exact absurd rfl hts
    | cons t ts => exact ⟨t, ts, rfl⟩
  have htn : ¬ t ≥ n := by have := ht t (by simp); omega
  have hpcs : upd (upd s.pc t .notify) t .out = s.pc := by
    funext u
    by_cases e : u = t
    · subst e; rw [upd_self, hpc u]
    · rw [upd_other _ _ e, upd_other _ _ e]
  have hfirst : runActs n s (iocpNotify s t) = some ({ s with notified := true, c := { s.c with port := [NOTIFIER] } }, [.notified t, .notifyBegin t]) := by
    simp only [iocpNotify, hnt, Bool.false_eq_true, if_false, runActs, step, hpc t, if_neg htn, Option.bind_some, upd_self, hpcs, hq]
    rfl
  obtain ⟨o, ho⟩ := iocpNotifies_set (n := n) (s := { s with notified := true, c := { s.c with port := [NOTIFIER] } }) hpc rfl ts fun t h => ht t (by simp [h])
  have hc0 : cap ≠ 0 := by omega
  have hc0' : cap' ≠ 0 := by omega
  obtain ⟨o2, h2⟩ := wait_one (n := n) (s := { s with notified := true, c := { s.c with port := [NOTIFIER] } }) (e := NOTIFIER) (evs := []) (timed := timed)
    hph hpe hc0 (by obtain ⟨c, rfl⟩ : ∃ c, cap = c + 1 := ⟨cap - 1, by omega⟩
                    simp) (.inl ⟨hwk, rfl⟩)
  have hdrop : [NOTIFIER].drop cap = [] := by
    rw [List.drop_eq_nil_iff]; exact hcap
  dsimp only at h2
  rw [hdrop] at h2
  refine ⟨_, o ++ [.notified t, .notifyBegin t], _, o2, { s with c := { s.c with port := [], polling := true }, notified := false, phase := .port ⟨false, cap', false, 0, []⟩ }, [.tau, .tau, .tau, .waitBegin],
    by simp only [iocpNotifies, hfirst, Option.bind_some, ho, Option.map_some], rfl, h2, rfl, rfl, rfl, ?_, ?_⟩
  · simp only [runActs, step, goWait, if_neg hc0', Option.bind_some, Option.map_some, hpe, List.nil_append, List.cons_append]
  · rfl

/-- Four notifications by three threads, and a `wait`; the state afterwards has nothing in the port. -/
example : (runActs 3 init ([.notifyCas 0, .notifyCas 1, .notifyPost 0 none, .notifyCas 2, .notifyCas 0] ++ waitOne false 4)).map
      (fun r => (r.2.filter (· ≠ .tau), r.1.c.port, r.1.notified)) =
    some ([.waitOk 0 [], .waitBegin, .notifySeen 0, .notifySeen 2, .notified 0, .notifySeen 1, .notifyBegin 0], [], false) := by decide +kernel

/-- Missing in `iocp_notify_coalesced_partial`: the case that completions are queued when `notify` is called.  If they fill the
buffer, the first `wait` returns them, and the notification wakes a second `wait` as well. -/
theorem iocp_notify_wakes_twice :
    exTrace ([.newPacket (Event.onlyReadable 9), .post 1 none, .notifyCas 0, .notifyPost 0 none] ++ waitOne false 1 ++ waitOne false 1) =
      some [.waitOk 0 [], .waitBegin, .waitOk 1 [Event.onlyReadable 9], .received 1 (Event.onlyReadable 9), .waitBegin, .notified 0, .notifyBegin 0,
        .posted 1 (Event.onlyReadable 9)] := by decide +kernel

end Polling.C06

namespace Polling.C35
open IocpM Iocp IocpSpec

/-- The buffers of all `wait` calls are large enough for everything that is queued. -/
def IocpRoomy : S → Act → Prop
  | s, .get => ∀ w, s.phase = .port w → s.c.port.length ≤ w.cap
  | _, _ => True

/-- The call is about to post a notification. -/
def posting : Pc → Bool
  | .notify => true
  | _ => false

/-- The `wait` has taken all that was queued. -/
def hasTaken : Phase → Bool
  | .unpoll _ _ | .feed _ _ | .feedUpd _ _ _ _ | .fin _ => true
  | _ => false

/-- Notifications in the port and about to be posted, and the one that could begin at once. -/
def iocpNotifications (n : Nat) (s : S) : Nat := s.c.port.count NOTIFIER + cnt n posting s.pc + (if s.notified then 0 else 1)

/-- With room in the buffers, at most two more notifications than threads are in the port, however many `notify` calls are
made.  Missing for the full property: buffers that are too small, see `iocp_queue_grows`. -/
theorem iocp_channel_bounded_partial (n : Nat) (s : S) (tr : List IObs) (h : Reach n IocpRoomy s tr) :
    s.c.port.count NOTIFIER ≤ n + 2 := by
  have key : iocpNotifications n s ≤ n + 2 ∧ (hasTaken s.phase = true → iocpNotifications n s ≤ n + 1) := by
    induction h with
    | init =>
      have : cnt n posting init.pc = 0 := by
        by_cases h0 : cnt n posting init.pc = 0
        · exact h0
        · obtain ⟨_, _, h⟩ := cnt_pos.1 (Nat.pos_of_ne_zero h0); cases h
      refine ⟨?_, nofun⟩
      unfold iocpNotifications
      rw [this]
      simp [init]
    | @step s tr a s' o hr hp hs ih =>
      obtain ⟨i1, i2⟩ := ih
      have hle := cnt_le n posting s.pc
      have same : iocpNotifications n s' ≤ iocpNotifications n s → (hasTaken s'.phase = true → hasTaken s.phase = true) →
          iocpNotifications n s' ≤ n + 2 ∧ (hasTaken s'.phase = true → iocpNotifications n s' ≤ n + 1) :=
        fun h1 h2 => ⟨Nat.le_trans h1 i1, fun h => Nat.le_trans h1 (i2 (h2 h))⟩
      have sameEq : s'.c.port.count NOTIFIER = s.c.port.count NOTIFIER → s'.notified = s.notified → s'.pc = s.pc → iocpNotifications n s' ≤ iocpNotifications n s := by
        intro h1 h2 h3
        unfold iocpNotifications
        rw [h1, h2, h3]
        exact Nat.le_refl _
      have notNotifier : ∀ p, s.c.pk p ≠ .wakeup → [p].count NOTIFIER = 0 := by
        intro p hpk
        rw [List.count_singleton, if_neg]
        intro he
        have := (reach_ti hr).wake
        rw [← (beq_iff_eq.1 he)] at this
        exact hpk this
      have moved : ∀ {t p}, t < n → posting (s.pc t) = posting p → s'.pc = upd s.pc t p → cnt n posting s'.pc = cnt n posting s.pc := by
        intro t p ht h1 h2
        have := cnt_upd posting s.pc ht p
        rw [h2]
        unfold upd
        rw [h1] at this
        omega
      cases a with
      | call t call =>
        simp only [step] at hs
        split at hs
        · cases hs
        rename_i ht
        split at hs
        · rename_i hout
          repeat' split at hs
          all_goals cases hs
          all_goals try exact same (sameEq rfl rfl rfl) fun h => h
          all_goals
            refine same ?_ fun h => h
            unfold iocpNotifications
            rw [moved (t := t) (Nat.lt_of_not_le ht) (by rw [hout]; first | rfl | (split <;> rfl)) rfl]
            exact Nat.le_refl _
        · cases hs
      | go t fault =>
        simp only [step] at hs
        split at hs
        · cases hs
        rename_i ht
        obtain ⟨h1, h2, h3, h4, p, h5, h6, h7⟩ := goCall_notify hs
        have hpost : ∀ p, p ≠ Pc.notify → posting p = false := by intro p hp; cases p <;> first | rfl | exact absurd rfl hp
        refine same ?_ fun h => by rw [h2] at h; exact h
        unfold iocpNotifications
        rw [moved (t := t) (by omega) (by rw [hpost _ h7, hpost _ h6]) h5, h1, h3]
        exact Nat.le_refl _
      | newPacket ev =>
        simp only [step] at hs
        split at hs <;> cases hs
        exact same (sameEq rfl rfl rfl) fun h => h
      | post p fault =>
        simp only [step] at hs
        split at hs
        · rename_i ev hpk
          split at hs <;> cases hs
          · exact same (sameEq rfl rfl rfl) fun h => h
          · refine same (sameEq ?_ rfl rfl) fun h => h
            rw [List.count_append, notNotifier p (by rw [hpk]; nofun)]
            rfl
        · cases hs
      | notifyCas t =>
        simp only [step] at hs
        split at hs
        · cases hs
        rename_i ht
        split at hs
        · rename_i hout
          split at hs
          · cases hs; exact same (sameEq rfl rfl rfl) fun h => h
          · rename_i hnt
            cases hs
            refine same ?_ fun h => h
            have := cnt_upd posting s.pc (Nat.lt_of_not_le ht) .notify
            rw [hout] at this
            unfold iocpNotifications upd
            dsimp only
            rw [if_neg hnt]
            simp only [if_true]
            simp only [posting, Bool.toNat_true, Bool.toNat_false] at this
            omega
        · cases hs
      | notifyPost t fault =>
        simp only [step] at hs
        split at hs
        · rename_i hnot
          have ht : t < n := by
            by_cases ht : t < n
            · exact ht
            · rw [reach_threads hr t (by omega)] at hnot; cases hnot
          have := cnt_upd posting s.pc ht .out
          rw [hnot] at this
          simp only [posting, Bool.toNat_true, Bool.toNat_false] at this
          split at hs <;> cases hs
          · refine same ?_ fun h => h
            unfold iocpNotifications upd
            dsimp only
            omega
          · refine same ?_ fun h => h
            unfold iocpNotifications upd
            dsimp only
            rw [List.count_append, List.count_singleton_self]
            omega
        · cases hs
      | waitBegin timed cap =>
        simp only [step] at hs
        repeat' split at hs
        all_goals cases hs
        exact same (sameEq rfl rfl rfl) nofun
      | waitBusy =>
        simp only [step] at hs
        split at hs <;> cases hs
        exact same (sameEq rfl rfl rfl) fun h => h
      | wait fault =>
        simp only [step, goWait, waitFail] at hs
        split at hs
        · cases hs; exact same (sameEq rfl rfl rfl) nofun
        · cases hs; exact same (sameEq rfl rfl rfl) nofun
        · split at hs <;> (cases hs; exact same (sameEq rfl rfl rfl) nofun)
        · rename_i w q hph
          have hfr := (update_frame fault s.c q).2.2.2.2.1
          split at hs
          · rename_i hu; rw [hu] at hfr; cases hs; exact same (sameEq (congrArg _ hfr) rfl rfl) nofun
          · rename_i hu; rw [hu] at hfr; cases hs; exact same (sameEq (congrArg _ hfr) rfl rfl) nofun
        · rename_i hph; cases hs; exact same (sameEq rfl rfl rfl) fun _ => by rw [hph]; rfl
        · split at hs <;> (cases hs; exact same (sameEq rfl rfl rfl) nofun)
        · split at hs <;> (cases hs; exact same (sameEq rfl rfl rfl) nofun)
        · rename_i q _ _; cases hs; exact same (sameEq (congrArg _ (dropEntries_frame s.c [q]).2) rfl rfl) nofun
        · rename_i w p batch hph
          have hfr := (feed_frame s.c p).2.2.2.2.1
          split at hs
          all_goals rename_i hu; rw [hu] at hfr; cases hs; exact same (sameEq (congrArg _ hfr) rfl rfl) fun _ => by rw [hph]; rfl
        · rename_i w batch u ev hph
          split at hs
          · rename_i hu; cases hs; exact same (sameEq (congrArg _ (ustep_frame hu).2.2.2) rfl rfl) fun _ => by rw [hph]; rfl
          · rename_i hu; cases hs; exact same (sameEq (congrArg _ (ustep_frame hu).2.2.2) rfl rfl) fun _ => by rw [hph]; rfl
          · rename_i hu; cases hs; exact same (sameEq (congrArg _ (ustep_frame hu).2.2.2) rfl rfl) nofun
        · rename_i evs hph
          have := i2 (by rw [hph]; rfl)
          cases hs
          refine ⟨?_, nofun⟩
          unfold iocpNotifications at *
          dsimp only
          rw [if_neg (by simp)]
          omega
        · cases hs
      | get =>
        simp only [step] at hs
        split at hs
        · rename_i w hph
          have hroom : s.c.port.length ≤ w.cap := hp w hph
          have bound : (if s.notified = true then 0 else 1) ≤ 1 := by split <;> omega
          split at hs <;> cases hs
          unfold iocpNotifications
          dsimp only
          rw [List.drop_eq_nil_of_le hroom, List.count_nil]
          exact ⟨by omega, fun _ => by omega⟩
        · cases hs
      | getFail e =>
        simp only [step] at hs
        split at hs <;> cases hs
        exact same (sameEq rfl rfl rfl) nofun
      | decide e =>
        simp only [step] at hs
        split at hs
        · rename_i w hph
          split at hs <;> cases hs
          · exact same (sameEq rfl rfl rfl) fun _ => by rw [hph]; rfl
          · exact same (sameEq rfl rfl rfl) nofun
        · cases hs
      | complete p r =>
        simp only [step] at hs
        split at hs
        · rename_i k hpk
          repeat' split at hs
          all_goals cases hs
          refine same (sameEq ?_ rfl rfl) fun h => h
          show (s.c.port ++ [p]).count NOTIFIER = _
          rw [List.count_append, notNotifier p (by rw [hpk]; nofun)]
          rfl
        · cases hs
      | fire p =>
        simp only [step] at hs
        repeat' split at hs
        all_goals cases hs
        exact same (sameEq rfl rfl rfl) fun h => h
      | callback p =>
        simp only [step] at hs
        repeat' split at hs
        all_goals cases hs
        exact same (sameEq rfl rfl rfl) fun h => h
      | callbackPost p fault =>
        simp only [step] at hs
        split at hs <;> cases hs
        rename_i hm
        refine same (sameEq ?_ rfl rfl) fun h => h
        dsimp only
        split
        · rw [List.count_append, notNotifier p, Nat.add_zero]
          intro hw
          have := (reach_cb hr).2 p (by simp [hm])
          rw [hw] at this; cases this
        · rfl
  have := key.1
  unfold iocpNotifications at this
  omega

/-- Two notifications in the port at once: the second thread begins after the first `wait` has reset the flag, before the
first thread has posted. -/
example : (runActs 3 init ([.newPacket (Event.onlyReadable 9), .post 1 none, .notifyCas 0] ++ C06.waitOne false 4 ++
      [.notifyCas 1, .notifyPost 1 none, .notifyPost 0 none])).map (fun r => r.1.c.port) = some [NOTIFIER, NOTIFIER] := by decide +kernel

/-- One `notify`, then a `wait` with room for one completion, which is the first in the port. -/
theorem iocp_cycle {s : S} {e : PId} {q : List PId} (hph : s.phase = .idle) (hpc : s.pc = fun _ => .out) (hnt : s.notified = false)
    (hq : s.c.port = e :: q) (hpe : s.c.pending = []) (hcl : s.c.pk e = .wakeup ∨ ∃ ev, s.c.pk e = .custom ev) :
    ∃ o, runActs 1 s ([.notifyCas 0, .notifyPost 0 none] ++ C06.waitOne false 1) =
      some ({ s with c := { s.c with port := q ++ [NOTIFIER], polling := false } }, o) := by
  have e1 : step 1 s (.notifyCas 0) = some ({ s with notified := true, pc := upd s.pc 0 .notify }, .notifyBegin 0) := by
    simp only [step, hpc, hnt]; rfl
  have e2 : step 1 { s with notified := true, pc := upd s.pc 0 .notify } (.notifyPost 0 none) =
      some ({ s with notified := true, c := { s.c with port := e :: (q ++ [NOTIFIER]) } }, .notified 0) := by
    have : upd (upd s.pc 0 .notify) 0 .out = s.pc := by
      funext u
      by_cases h : u = 0
      · subst h; rw [upd_self, hpc]
      · rw [upd_other _ _ h, upd_other _ _ h]
    simp only [step, upd_self, this, hq, List.cons_append]
  obtain ⟨evs, hev⟩ : ∃ evs, (s.c.pk e = .wakeup ∧ evs = []) ∨ ∃ ev, s.c.pk e = .custom ev ∧ evs = [ev] := by
    rcases hcl with h | ⟨ev, h⟩
    · exact ⟨[], .inl ⟨h, rfl⟩⟩
    · exact ⟨[ev], .inr ⟨ev, h, rfl⟩⟩
  obtain ⟨o, ho⟩ := C06.wait_one (n := 1) (s := { s with notified := true, c := { s.c with port := e :: (q ++ [NOTIFIER]) } }) (timed := false) (cap := 1)
    hph hpe (by decide) rfl hev
  simp only [List.cons_append, List.nil_append, runActs, e1, e2, Option.bind_some, ho, Option.map_some]
  refine ⟨.waitOk (visible evs).length (visible evs) :: (o ++ [.notified 0] ++ [.notifyBegin 0]), ?_⟩
  obtain ⟨c, nt, pc, ph, cb, cbp⟩ := s
  dsimp only at *
  subst hph hnt
  rfl

/-- Notifications are rotated to the end of the port. -/
theorem iocp_rotate (j m : Nat) {s : S} {tr : List IObs} (h : Reach 1 Any s tr) (hph : s.phase = .idle) (hpc : s.pc = fun _ => .out)
    (hnt : s.notified = false) (hpe : s.c.pending = []) (hq : s.c.port = List.replicate j NOTIFIER ++ 1 :: List.replicate m NOTIFIER)
    (hc : s.c.pk 1 = .custom (Event.onlyReadable 9)) :
    ∃ s' tr', Reach 1 Any s' tr' ∧ s'.phase = .idle ∧ s'.pc = (fun _ => .out) ∧ s'.notified = false ∧ s'.c.pending = [] ∧
      s'.c.port = 1 :: List.replicate (m + j) NOTIFIER ∧ s'.c.pk 1 = .custom (Event.onlyReadable 9) := by
  induction j generalizing s tr m with
  | zero => exact ⟨s, tr, h, hph, hpc, hnt, hpe, by simpa using hq, hc⟩
  | succ j ih =>
    obtain ⟨o, hr⟩ := iocp_cycle hph hpc hnt (by rw [hq, List.replicate_succ, List.cons_append]) hpe (.inl (reach_ti h).wake)
    have hr' := run_reach h (fun _ _ _ => trivial) hr
    obtain ⟨s2, tr2, g1, g2, g3, g4, g5, g6, g7⟩ := ih (m + 1) hr' hph hpc hnt hpe (by simp [List.replicate_succ']) hc
    exact ⟨s2, tr2, g1, g2, g3, g4, g5, by rw [g6]; congr 2; omega, g7⟩

/-- Where the property fails: if the buffer has room for one completion only and packets keep being posted, the number of
notifications in the port grows beyond any bound, a single thread calling `notify`, `wait` and `post` in turn; no call is in
progress in the state reached. -/
theorem iocp_queue_grows (N : Nat) :
    ∃ s tr, Reach 1 Any s tr ∧ s.phase = .idle ∧ (∀ t, s.pc t = .out) ∧ s.c.port.count NOTIFIER ≥ N := by
  have key : ∃ s tr, Reach 1 Any s tr ∧ s.phase = .idle ∧ s.pc = (fun _ => .out) ∧ s.notified = false ∧ s.c.pending = [] ∧
      s.c.port = 1 :: List.replicate N NOTIFIER ∧ s.c.pk 1 = .custom (Event.onlyReadable 9) := by
    induction N with
    | zero =>
      exact ⟨_, _, (Reach.init.step (P := Any) (a := .newPacket (Event.onlyReadable 9)) trivial rfl).step (a := .post 1 none) trivial rfl,
        rfl, rfl, rfl, rfl, rfl, rfl⟩
    | succ N ih =>
      obtain ⟨s, tr, hr, hph, hpc, hnt, hpe, hq, hc⟩ := ih
      obtain ⟨o, hrun⟩ := iocp_cycle hph hpc hnt hq hpe (.inr ⟨_, hc⟩)
      have hr1 := run_reach hr (fun _ _ _ => trivial) hrun
      rw [← List.replicate_succ'] at hr1
      have hs : step 1 { s with c := { s.c with port := List.replicate (N + 1) NOTIFIER, polling := false } } (.post 1 none) =
          some ({ s with c := { s.c with port := List.replicate (N + 1) NOTIFIER ++ [1], polling := false } }, .posted 1 (Event.onlyReadable 9)) := by
        simp only [step, hc]
      obtain ⟨s3, tr3, g⟩ := iocp_rotate (N + 1) 0 (hr1.step (P := Any) trivial hs) hph hpc hnt hpe rfl hc
      rw [Nat.zero_add] at g
      exact ⟨s3, tr3, g⟩
  obtain ⟨s, tr, h1, h2, h3, _, _, hq, _⟩ := key
  refine ⟨s, tr, h1, h2, fun t => by rw [h3], ?_⟩
  rw [hq, List.count_cons, List.count_replicate_self]
  omega

end Polling.C35
