import Verif.Proof.EpollRun

/-! C04 and C39 (epoll): a notification is never lost, also after failures - with one exception. -/

namespace Polling.C04
open EpollM Epoll Spec

/-- In every reachable state, for any number of threads and any interleaving (and any failures of OS calls other than
re-arming the notifier): if a `wait` is blocked in the OS although a `notify` returned after the last `wait` that
returned, then the OS can let it return at once, or another `notify` call is in progress whose one remaining step, the
write, makes it return.  It applies to eventfd and pipe, with and without timerfd, for every timeout. -/
theorem epoll_notification_not_lost (c : Cfg) (hok : c.Ok) (s : S) (tr : List (Obs EventExtra))
    (h : ReachP c RearmWorks s tr) (hw : owed tr = true) (dl cap to t0) (hph : s.phase = .polling dl cap to t0) :
    (∃ s' evs, step c s .epollReturn = some (s', .deliver evs)) ∨
    (∃ s1 o, s.inflight > 0 ∧ step c s .notifyWrite = some (s1, o) ∧
      ∃ s' evs, step c s1 .epollReturn = some (s', .deliver evs)) := by
  have hN := reach_N hok h
  have hk := reach_kinv hok h.reach
  have hcap := hN.capOk
  rw [hph] at hcap
  have harm := hN.armed (by rw [hph]; exact id)
  have hch := hN.chan (.inr hw)
  rw [hph] at hch
  rcases hch with hc | hc | hc
  · exact .inl ⟨_, _, return_enabled hph (.inl (notif_ready hk.l harm hc hcap))⟩
  · right
    have hs : step c s .notifyWrite =
        some ({ s with k := link { s.k with count := s.k.count + 1 } c.notifFd IN, inflight := s.inflight - 1 }, .notified) := by
      simp only [step]; rw [if_pos hc]
    refine ⟨_, _, hc, hs, ?_⟩
    have h1 := h.step (a := .notifyWrite) trivial hs
    have hk1 := reach_kinv hok h1.reach
    have hN1 := reach_N hok h1
    refine ⟨_, _, return_enabled (dl := dl) (cap := cap) (to := to) (t0 := t0) hph (.inl ?_)⟩
    refine notif_ready hk1.l (hN1.armed (by simp only [hph]; exact id)) ?_ hcap
    simp only; rw [link_eq]; simp
  · exact absurd hc id

/-- Before it blocks, a `wait` only takes steps that are always possible, so it does get there (or fails): from every
phase before `epoll_wait` the next step is enabled and goes on. -/
theorem epoll_wait_reaches_os (c : Cfg) (s : S) :
    (∀ dl cap, s.phase = .top dl cap → ∃ s' o to, step c s .compute = some (s', o) ∧ s'.phase = .sized dl cap to) ∧
    (∀ dl cap to, s.phase = .sized dl cap to → ∃ s' o, step c s (.settime none) = some (s', o) ∧ s'.phase = .timed dl cap to) ∧
    (∀ dl cap to, s.phase = .timed dl cap to → ∀ fault, ∃ s' o, step c s (.armTimer fault) = some (s', o) ∧
      (s'.phase = .polling dl cap to s.k.time ∨ s'.phase = .top dl cap ∨ ∃ e, o = .waitErr e)) := by
  refine ⟨?_, ?_, ?_⟩
  · intro dl cap hph; simp only [step, hph]; exact ⟨_, _, _, rfl, rfl⟩
  · intro dl cap to hph; simp only [step, hph]; split <;> exact ⟨_, _, rfl, rfl⟩
  · intro dl cap to hph fault
    simp only [step, hph]
    split
    · rcases hm : EpollM.modify c fault s.k c.timerFd (Event.onlyReadable NOTIFY_KEY) .oneshot with ⟨r, k⟩
      have ht := (modify_timer hm).2.2
      cases r with
      | ok => exact ⟨_, _, rfl, .inl (by simp only [ht])⟩
      | err e =>
        simp only [waitFail]
        split
        · exact ⟨_, _, rfl, .inr (.inl rfl)⟩
        · exact ⟨_, _, rfl, .inr (.inr ⟨e, rfl⟩)⟩
    · exact ⟨_, _, rfl, .inl rfl⟩

/-- After the OS let it return, `wait` comes to its end by its own steps: clearing (each read empties the eventfd, or
takes up to 1024 bytes of the pipe), re-arming, resetting the flag. -/
theorem epoll_wait_ends (c : Cfg) (hok : c.Ok) (s : S) (tr : List (Obs EventExtra)) (h : Reach c s tr) (dl cap evs)
    (hph : s.phase = .clearing dl cap evs) :
    ∃ m s' obs, runActs c s (List.replicate m .clearRead ++ [.rearm none, .finish]) =
      some (s', .waitOk (visible evs).length (visible evs) :: obs) ∧
      s'.phase = .idle ∧ s'.notified = false ∧ s'.k.count = 0 ∧ s'.inflight = s.inflight ∧ s'.k.time = s.k.time ∧
      s'.k.user = s.k.user ∧ ∀ o ∈ obs, o = .tau := by
  -- the reads
  have reads : ∀ n (s : S), s.k.count ≤ n → s.phase = .clearing dl cap evs →
      ∃ m s1 obs, runActs c s (List.replicate m .clearRead) = some (s1, obs) ∧
        s1 = { s with k := { s.k with count := 0 }, phase := .cleared dl cap evs } ∧ ∀ o ∈ obs, o = .tau := by
    intro n
    induction n using Nat.strongRecOn with
    | ind n ih =>
      intro s hc hph
      by_cases hp : c.pipe = true ∧ s.k.count > 0
      · have hs : step c s .clearRead = some ({ s with k := { s.k with count := s.k.count - 1024 } }, .tau) := by
          simp only [step, hph]; rw [if_pos hp]
        obtain ⟨m, s1, obs, hr, he, hob⟩ := ih (n - 1) (by omega) { s with k := { s.k with count := s.k.count - 1024 } }
          (by simp only; omega) hph
        exact ⟨m + 1, s1, obs ++ [.tau], by simp [List.replicate_succ, runActs, hs, hr], he,
          fun o ho => by rcases List.mem_append.1 ho with h | h; exact hob o h; simpa using h⟩
      · have hs : step c s .clearRead = some ({ s with k := { s.k with count := 0 }, phase := .cleared dl cap evs }, .tau) := by
          simp only [step, hph]; rw [if_neg hp]
        exact ⟨1, _, [.tau], by simp only [List.replicate_one, runActs, hs]; rfl, rfl, by simp⟩
  obtain ⟨m, s1, obs, hr, he, hob⟩ := reads _ s (Nat.le_refl _) hph
  have h1 := run_reach h hr
  have hsome : (s1.k.items c.notifFd).isSome = true := notif_some (reach_kinv hok h1).r
  have hmod := modify_ok_of_some (c := c) (ev := Event.onlyReadable NOTIFY_KEY) (mode := .oneshot) hsome
  rcases hm : EpollM.modify c none s1.k c.notifFd (Event.onlyReadable NOTIFY_KEY) .oneshot with ⟨r, k⟩
  rw [hm] at hmod
  simp only at hmod
  subst hmod
  have hp1 : s1.phase = .cleared dl cap evs := by rw [he]
  have hs2 : step c s1 (.rearm none) = some ({ s1 with k, phase := .rearmed dl cap evs }, .tau) := by
    simp only [step, hp1, hm]
  have hk0 : k.count = s1.k.count ∧ k.user = s1.k.user := by
    rcases ctlMod_cases hm with ⟨_, _, rfl⟩ | ⟨⟨e, he⟩, _⟩
    · rw [link_eq]; exact ⟨rfl, rfl⟩
    · cases he
  have hs3 : step c { s1 with k, phase := .rearmed dl cap evs } .finish =
      some ({ s1 with k, phase := .idle, notified := false }, .waitOk (visible evs).length (visible evs)) := rfl
  refine ⟨m, { s1 with k, phase := .idle, notified := false }, _,
    run_append hr (bs := [.rearm none, .finish]) (o2 := [.waitOk (visible evs).length (visible evs), .tau]) ?_, rfl, rfl, ?_, ?_, ?_, ?_, ?_⟩
  · simp only [runActs, hs2, hs3, Option.bind_some, Option.map_some, List.nil_append, List.singleton_append]
  · simp only; rw [hk0.1, he]
  · simp only [he]
  · simp only; rw [(modify_timer hm).2.2, he]
  · simp only; rw [hk0.2, he]
  · intro o ho
    rcases List.mem_append.1 ho with h | h
    · simpa using h
    · exact hob o h

/-- A thread is blocked; a second thread has set the flag but not yet written; a third `notify` returns at once.  Then
the write, and the wait returns. -/
example : exTrace exCfg (fun _ => 0#32) [.waitBegin none 5, .compute, .settime none, .armTimer none, .notifyCas, .notifyCas,
      .notifyWrite, .epollReturn, .clearRead, .rearm none, .finish] =
    some [.waitOk 0 [], .tau, .tau, .deliver [], .notified, .notified, .tau, .tau, .tau, .tau, .waitBegin] ∧
   exTrace exCfg (fun _ => 0#32) [.waitBegin none 5, .compute, .settime none, .armTimer none, .epollReturn] = none := by decide

end Polling.C04

namespace Polling.C39
open EpollM Epoll Spec

/-- The exception: after a failure to re-arm the notifier (which consumes the notification, drops the events already
taken, and leaves the `notified` flag set), a later `notify` is suppressed and a later `wait(None)` stays blocked:
the notification is owed, no call is in progress, and the OS cannot let the `wait` return - however much time
passes. -/
theorem epoll_failed_wait_disables_notify :
    ∃ c s tr, c.Ok ∧ Reach c s tr ∧ owed tr = true ∧ s.inflight = 0 ∧ (∃ dl cap to t0, s.phase = .polling dl cap to t0) ∧
      (∃ e tr', tr = [.tau, .tau, .tau, .waitBegin, .notified, .waitErr e] ++ tr') ∧
      step c s .epollReturn = none ∧
      ∀ dt, ∃ s', step c s (.tick dt) = some (s', .tau) ∧ step c s' .epollReturn = none := by
  have hr : ((runActs exCfg (init exCfg (fun _ => 0#32)) [.notifyCas, .notifyWrite, .waitBegin none 5, .compute,
      .settime none, .armTimer none, .epollReturn, .clearRead, .rearm (some (.os 12)), .notifyCas, .waitBegin none 5, .compute,
      .settime none, .armTimer none]).map fun r => (r.2, r.1.phase, r.1.k.rdl, r.1.k.expiry, r.1.inflight)) =
      some ([.tau, .tau, .tau, .waitBegin, .notified, .waitErr (.os 12), .tau, .deliver [], .tau, .tau, .tau,
        .waitBegin, .notified, .tau], .polling none 5 none 0, [], none, 0) := by decide
  rw [Option.map_eq_some_iff] at hr
  obtain ⟨⟨s, o⟩, hr, he⟩ := hr
  simp only [Prod.mk.injEq] at he
  obtain ⟨rfl, hph, hrdl, hexp, hinf⟩ := he
  have hharv : ∀ k : Kern, k.rdl = [] → (harvest exCfg k 5).1 = [] := by
    intro k hk; unfold harvest; rw [hk]; simp [scan]
  refine ⟨exCfg, s, _, by unfold Cfg.Ok; decide, by simpa using run_reach (.init _) hr, by decide, hinf, ⟨_, _, _, _, hph⟩,
    ⟨_, _, rfl⟩, ?_, ?_⟩
  · exact return_disabled hph (hharv _ hrdl) (by simp [timeUp, epollTimeoutMs])
  · intro dt
    refine ⟨{ s with k := { s.k with time := s.k.time + dt } }, by simp only [step, hexp], ?_⟩
    exact return_disabled (by exact hph) (hharv _ hrdl) (by simp [timeUp, epollTimeoutMs])

/-- Apart from that, failures are harmless: after any failing `wait`s (interrupted system calls, failing
`timerfd_settime`, `epoll_ctl` of the timer, or `epoll_wait`) a `notify` still wakes the `wait`.  Missing for the full
property: the failure of the final re-arming, which does break it (see above). -/
theorem epoll_failed_wait_partial (c : Cfg) (hok : c.Ok) (s : S) (tr mid earlier : List (Obs EventExtra)) (e : Err)
    (h : ReachP c RearmWorks s tr) (htr : tr = mid ++ .waitErr e :: earlier) (hn : .notified ∈ mid)
    (hmid : ∀ n evs, .waitOk n evs ∉ mid) (dl cap to t0) (hph : s.phase = .polling dl cap to t0) :
    (∃ s' evs, step c s .epollReturn = some (s', .deliver evs)) ∨
    (∃ s1 o, s.inflight > 0 ∧ step c s .notifyWrite = some (s1, o) ∧
      ∃ s' evs, step c s1 .epollReturn = some (s', .deliver evs)) := by
  refine C04.epoll_notification_not_lost c hok s tr h ?_ dl cap to t0 hph
  subst htr
  clear h
  induction mid with
  | nil => cases hn
  | cons o mid ih =>
    cases o with
    | notified => rfl
    | waitOk n evs => exact absurd (by simp) (hmid n evs)
    | _ =>
      simp only [List.cons_append, owed]
      exact ih (by simpa using hn) (fun n evs hm => hmid n evs (by simp [hm]))

end Polling.C39
