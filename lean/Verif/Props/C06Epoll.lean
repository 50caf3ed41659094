import Verif.Props.C04Epoll

/-! C06 (epoll): `notify` is coalesced, and consumed by one `wait`. -/

namespace Polling.C06
open EpollM Epoll Spec

/-- One `notify` call without interference: the compare-exchange, and the write if it succeeded. -/
def notifyCall (c : Cfg) (s : S) : Option (S × List (Obs EventExtra)) :=
  match step c s .notifyCas with
  | some (s1, .notified) => some (s1, [.notified])
  | some (s1, o) => (step c s1 .notifyWrite).map fun r => (r.1, [r.2, o])
  | none => none

/-- `n` such calls, one after the other. -/
def notifyCalls (c : Cfg) : Nat → S → Option (S × List (Obs EventExtra))
  | 0, s => some (s, [])
  | n + 1, s => (notifyCall c s).bind fun r => (notifyCalls c n r.1).map fun q => (q.1, q.2 ++ r.2)

/-- The steps by which `wait` gets into `epoll_wait`, no call failing and no time passing. -/
def enter (timeout : Option Duration) (cap : Nat) : List Act :=
  [.waitBegin timeout cap, .compute, .settime none, .armTimer none]

/-- No registered source has an event to report. -/
def Quiet (s : S) (tr : List (Obs EventExtra)) : Prop :=
  ∀ fd cu, current tr fd = some cu → ¬ EpollPending cu.ev (s.k.user fd)

theorem current_tau {obs tr : List (Obs EventExtra)} (h : ∀ o ∈ obs, o = .tau) : current (obs ++ tr) = current tr := by
  induction obs with
  | nil => rfl
  | cons o obs ih =>
    have := h o (by simp)
    subst this
    funext fd
    exact congrFun (ih fun o ho => h o (by simp [ho])) fd

theorem notifyCall_reach {c s tr s' o} (h : ReachP c RearmWorks s tr) (hc : notifyCall c s = some (s', o)) :
    ReachP c RearmWorks s' (o ++ tr) := by
  unfold notifyCall at hc
  split at hc
  · next h1 => cases hc; exact h.step (a := .notifyCas) trivial h1
  · next h1 =>
    rw [Option.map_eq_some_iff] at hc
    obtain ⟨⟨s2, o2⟩, h2, he⟩ := hc
    cases he
    exact (h.step (a := .notifyCas) trivial h1).step (a := .notifyWrite) trivial h2
  · cases hc

/-- One call from a quiet state. -/
theorem notifyCall_ok {c : Cfg} (hth : c.threads > 0) {s : S} (hph : s.phase = .idle) (hinf : s.inflight = 0) :
    ∃ s' o, notifyCall c s = some (s', o) ∧ s'.phase = .idle ∧ s'.inflight = 0 ∧ s'.k.user = s.k.user ∧ s'.k.time = s.k.time ∧
      (∀ tr, owed (o ++ tr) = true) ∧ ∀ tr, current (o ++ tr) = current tr := by
  unfold notifyCall
  by_cases hn : s.notified = true
  · have h1 : step c s .notifyCas = some (s, .notified) := by simp only [step]; rw [if_pos hn]
    rw [h1]
    exact ⟨s, _, rfl, hph, hinf, rfl, rfl, fun _ => rfl, fun _ => rfl⟩
  · have h1 : step c s .notifyCas = some ({ s with notified := true, inflight := s.inflight + 1 }, .tau) := by
      simp only [step]; rw [if_neg hn, if_pos (by omega)]
    have h2 : step c { s with notified := true, inflight := s.inflight + 1 } .notifyWrite =
        some ({ s with notified := true, inflight := s.inflight, k := link { s.k with count := s.k.count + 1 } c.notifFd IN }, .notified) := by
      simp only [step]; rw [if_pos (by omega)]; simp
    rw [h1]
    simp only [h2, Option.map_some]
    refine ⟨_, _, rfl, hph, hinf, ?_, ?_, fun _ => rfl, fun _ => rfl⟩ <;> (simp only; rw [link_eq])

/-- Any number of calls. -/
theorem notifyCalls_ok {c : Cfg} (hth : c.threads > 0) (n : Nat) {s : S} {tr : List (Obs EventExtra)}
    (h : ReachP c RearmWorks s tr) (hph : s.phase = .idle) (hinf : s.inflight = 0) :
    ∃ s' o, notifyCalls c n s = some (s', o) ∧ ReachP c RearmWorks s' (o ++ tr) ∧ s'.phase = .idle ∧ s'.inflight = 0 ∧
      s'.k.user = s.k.user ∧ s'.k.time = s.k.time ∧ (n > 0 ∨ owed tr = true → owed (o ++ tr) = true) ∧
      current (o ++ tr) = current tr := by
  induction n generalizing s tr with
  | zero => exact ⟨s, [], rfl, h, hph, hinf, rfl, rfl, fun h => by simpa using h, rfl⟩
  | succ n ih =>
    obtain ⟨s1, o1, h1, hp1, hi1, hu1, ht1, how1, hc1⟩ := notifyCall_ok hth hph hinf
    obtain ⟨s2, o2, h2, hr2, hp2, hi2, hu2, ht2, how2, hc2⟩ := ih (notifyCall_reach h h1) hp1 hi1
    refine ⟨s2, o2 ++ o1, by simp [notifyCalls, h1, h2], by simpa using hr2, hp2, hi2, hu2.trans hu1, ht2.trans ht1, fun _ => ?_, ?_⟩
    · rw [List.append_assoc]; exact how2 (.inr (how1 tr))
    · rw [List.append_assoc, hc2, hc1]

/-- The way into `epoll_wait`. -/
theorem enter_ok {c : Cfg} (hok : c.Ok) {s : S} {tr : List (Obs EventExtra)} (h : Reach c s tr) (hph : s.phase = .idle)
    (timeout : Option Duration) {cap : Nat} (hcap : cap > 0) :
    ∃ s' dl to t0, runActs c s (enter timeout cap) = some (s', [.tau, .tau, .tau, .waitBegin]) ∧
      s'.phase = .polling dl cap to t0 ∧ (timeout = none → dl = none) ∧ s'.k.user = s.k.user ∧ s'.k.count = s.k.count ∧
      s'.k.time = s.k.time ∧ s'.inflight = s.inflight := by
  have hk := reach_kinv hok h
  generalize hdl : (timeout.bind fun t => instantCheckedAdd unixMaxNs s.k.time t) = dl
  have hdl0 : timeout = none → dl = none := by rintro rfl; rw [← hdl]; rfl
  have h1 : step c s (.waitBegin timeout cap) = some ({ s with phase := .top dl cap }, .waitBegin) := by
    simp only [step, hph]; rw [if_neg (by omega), hdl]
  generalize hto : (dl.map fun d => saturatingSince d s.k.time) = to
  have h2 : step c { s with phase := .top dl cap } .compute = some ({ s with phase := .sized dl cap to }, .tau) := by
    simp only [step, hto]
  cases ht : c.hasTimer with
  | false =>
    have h3 : step c { s with phase := .sized dl cap to } (.settime none) = some ({ s with phase := .timed dl cap to }, .tau) := by
      simp [step, ht]
    have h4 : step c { s with phase := .timed dl cap to } (.armTimer none) =
        some ({ s with phase := .polling dl cap to s.k.time }, .tau) := by simp [step, ht]
    refine ⟨{ s with phase := .polling dl cap to s.k.time }, dl, to, s.k.time, ?_, rfl, hdl0, rfl, rfl, rfl, rfl⟩
    simp only [enter, runActs, h1, h2, h3, h4, Option.bind_some, Option.map_some, List.nil_append, List.cons_append]
  | true =>
    have h3 : step c { s with phase := .sized dl cap to } (.settime none) =
        some ({ s with k := EpollM.settime s.k (timerValue to), phase := .timed dl cap to }, .tau) := by simp [step, ht]
    have hsome : ((EpollM.settime s.k (timerValue to)).items c.timerFd).isSome = true := by
      show (s.k.items c.timerFd).isSome = true
      rcases hk.r.timer ht with e | e | e <;> simp [e]
    have hmod := modify_ok_of_some (c := c) (ev := Event.onlyReadable NOTIFY_KEY) (mode := .oneshot) hsome
    rcases hm : EpollM.modify c none (EpollM.settime s.k (timerValue to)) c.timerFd (Event.onlyReadable NOTIFY_KEY) .oneshot with ⟨r, k⟩
    rw [hm] at hmod
    simp only at hmod
    subst hmod
    have hkk : k.count = s.k.count ∧ k.user = s.k.user ∧ k.time = s.k.time := by
      rcases ctlMod_cases hm with ⟨_, _, rfl⟩ | ⟨⟨e, he⟩, _⟩
      · rw [link_eq]; exact ⟨rfl, rfl, rfl⟩
      · cases he
    have h4 : step c { s with k := EpollM.settime s.k (timerValue to), phase := .timed dl cap to } (.armTimer none) =
        some ({ s with k, phase := .polling dl cap to k.time }, .tau) := by
      simp only [step, ht, if_true, hm]
    refine ⟨{ s with k, phase := .polling dl cap to k.time }, dl, to, k.time, ?_, rfl, hdl0, hkk.2.1, hkk.1, hkk.2.2, rfl⟩
    simp only [enter, runActs, h1, h2, h3, h4, Option.bind_some, Option.map_some, List.nil_append, List.cons_append]

theorem enter_works (timeout : Option Duration) (cap : Nat) : ∀ a ∈ enter timeout cap, RearmWorks a := by
  simp [enter, RearmWorks]

/-- Any number of notifications make exactly one `wait` return.  From every reachable state between calls (whatever was
registered, delivered, timed out or notified before) in which no source has an event to report: after `n ≥ 1` calls of
`notify`, a `wait` with any timeout returns - no time has to pass - with count 0 and no events; and after it a
`wait(None)` blocks: the OS does not let it return. -/
theorem epoll_notify_coalesced (c : Cfg) (hok : c.Ok) (hth : c.threads > 0) (s : S) (tr : List (Obs EventExtra))
    (h : ReachP c RearmWorks s tr) (hph : s.phase = .idle) (hinf : s.inflight = 0) (hq : Quiet s tr) (n : Nat) (hn : n > 0)
    (timeout : Option Duration) (cap cap' : Nat) (hcap : cap > 0) (hcap' : cap' > 0) :
    ∃ s1 o1 m s2 o2 s3 o3, notifyCalls c n s = some (s1, o1) ∧
      runActs c s1 (enter timeout cap ++ .epollReturn :: (List.replicate m .clearRead ++ [.rearm none, .finish])) =
        some (s2, .waitOk 0 [] :: o2) ∧
      s2.phase = .idle ∧ s2.k.time = s.k.time ∧
      runActs c s2 (enter none cap') = some (s3, o3) ∧ step c s3 .epollReturn = none := by
  obtain ⟨s1, o1, h1, hr1, hp1, hi1, hu1, ht1, how1, hc1⟩ := notifyCalls_ok hth n h hph hinf
  obtain ⟨sa, dl, to, t0, ha, hpa, -, hua, hca, hta, hia⟩ := enter_ok hok hr1.reach hp1 timeout hcap
  have hra := run_reachP hr1 (enter_works timeout cap) ha
  have how : owed ([.tau, .tau, .tau, .waitBegin] ++ (o1 ++ tr)) = true := how1 (.inl hn)
  rcases C04.epoll_notification_not_lost c hok sa _ hra how dl cap to t0 hpa with ⟨sb, evs, hb⟩ | ⟨_, _, hinf', _⟩
  rotate_left
  · omega
  have hrb := hra.step (a := .epollReturn) trivial hb
  obtain ⟨_, dl', cap', to', t0', hpa', _, hsb, hevs⟩ := deliver_inv hb
  rw [hpa] at hpa'
  cases hpa'
  -- nothing is delivered
  have hcur : current ([.tau, .tau, .tau, .waitBegin] ++ (o1 ++ tr)) = current tr := hc1
  have hnil : evs = [] := by
    cases evs with
    | nil => rfl
    | cons e l =>
      obtain ⟨_, cu, hcu, _, hne, _⟩ := (delivery (reach_kinv hok hra.reach) cap).sound e.1 e.2 (by rw [← hevs]; simp)
      rw [hcur] at hcu
      rw [hua, hu1] at hne
      exact absurd ((pending_iff cu _).1 hne) (hq _ cu hcu)
  subst hnil
  have hpb : sb.phase = .clearing dl cap (harvest c sa.k cap).1 := by rw [hsb]
  have hvis : visible (harvest c sa.k cap).1 = [] := by
    rw [visible_user (reach_kinv hok hra.reach) cap, ← hevs]; rfl
  obtain ⟨m, s2, o2, h2, hp2, hn2, hct2, hi2, ht2, hu2, hta2⟩ := C04.epoll_wait_ends c hok sb _ hrb.reach dl cap _ hpb
  rw [hvis] at h2
  have htb : sb.k.time = sa.k.time ∧ sb.k.user = sa.k.user ∧ sb.inflight = sa.inflight := by rw [hsb]; exact ⟨rfl, rfl, rfl⟩
  have hr2 := run_reach hrb.reach h2
  obtain ⟨s3, dl3, to3, t03, h3, hp3, hd3, hu3, hc3, ht3, hi3⟩ := enter_ok hok hr2 hp2 none hcap'
  rw [hd3 rfl] at hp3
  have hr3 := run_reach hr2 h3
  refine ⟨s1, o1, m, s2, o2 ++ (.deliver [] :: [.tau, .tau, .tau, .waitBegin]), s3, _, h1, ?_, hp2, ?_, h3, ?_⟩
  · have hrun1 : runActs c s1 (enter timeout cap ++ [.epollReturn]) = some (sb, [.deliver []] ++ [.tau, .tau, .tau, .waitBegin]) :=
      run_append ha (run_one hb)
    have := run_append hrun1 h2
    simpa using this
  · rw [ht2, htb.1, hta, ht1]
  · -- the next wait blocks
    cases hs : step c s3 .epollReturn with
    | none => rfl
    | some r =>
      exfalso
      obtain ⟨s4, o4⟩ := r
      simp only [step, hp3] at hs
      split at hs
      · next hcond =>
        rcases hcond with hh | hh
        · -- some descriptor would be reported
          have hk3 := reach_kinv hok hr3
          obtain ⟨pre, rest, g1, g2, g3, g4, g5⟩ := harvest_spec hk3.l cap'
          obtain ⟨e, l, hel⟩ := List.exists_cons_of_ne_nil hh
          have he : e ∈ (harvest c s3.k cap').1 := by rw [hel]; simp
          have he' := he
          rw [g2, List.mem_map] at he
          obtain ⟨x, hx, hxe⟩ := he
          have hhot := (List.mem_filter.1 hx).2
          have hcnt : s3.k.count = 0 := by rw [hc3, hct2]
          cases hi : c.internal x with
          | false =>
            obtain ⟨cu, hcu, _, hne⟩ := (hot_user hk3 hi).1 hhot
            have hc2 : current (.waitOk 0 [] :: o2 ++ (.deliver [] :: ([.tau, .tau, .tau, .waitBegin] ++ (o1 ++ tr)))) = current tr := by
              show current (o2 ++ _) = _
              rw [current_tau hta2]
              funext fd
              show Option.map _ (current ([.tau, .tau, .tau, .waitBegin] ++ (o1 ++ tr)) fd) = _
              rw [hcur]
              simp
            have hcu' : current (.waitOk 0 [] :: o2 ++ (.deliver [] :: ([.tau, .tau, .tau, .waitBegin] ++ (o1 ++ tr)))) x = some cu := hcu
            rw [hc2] at hcu'
            rw [hu3, hu2, htb.2.1, hua, hu1] at hne
            exact hq _ cu hcu' ((pending_iff cu _).1 hne)
          | true =>
            rcases internal_cases hi with rfl | ⟨htm, rfl⟩
            · simp [hot, rev, ready, hcnt] at hhot
              rcases hk3.r.notif with hh | hh <;> simp [hh] at hhot
            · have hT := reach_T hr3
              rw [hp3] at hT
              have htk := (hT.2.2.2 htm).2
              have hne' : c.timerFd ≠ c.notifFd := hok htm
              cases htk' : s3.k.ticks with
              | true => obtain ⟨d, hd, _⟩ := htk htk'; cases hd
              | false =>
                simp [hot, rev, ready, hne', htm, htk'] at hhot
                rcases hk3.r.timer htm with hh | hh | hh <;> simp [hh] at hhot
        · have hT := reach_T hr3
          rw [hp3] at hT
          obtain ⟨_, ⟨t, _, hto⟩, _, _⟩ := hT
          subst hto
          simp [timeUp, epollTimeoutMs] at hh
      · cases hs

/-- Three notifications, a wait that returns with nothing, and a wait that blocks - with a registered source. -/
example : (((runActs exCfg (init exCfg (fun _ => 0#32)) [.add 7 (Event.onlyReadable 11) .level none]).bind fun r =>
      notifyCalls exCfg 3 r.1).bind fun r =>
      runActs exCfg r.1 (enter none 8 ++ .epollReturn :: (List.replicate 1 .clearRead ++ [.rearm none, .finish]))).map (fun r => r.2.head?) =
    some (some (.waitOk 0 [])) := by decide

end Polling.C06
