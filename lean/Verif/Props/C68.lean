import Verif.Proof.NestedEpoll
import Verif.Proof.LiveEpoll
import Verif.Proof.HandRun
import Verif.Spec.Live

/-!
C68 (epoll): a poller can be watched by another event loop.  While no thread is waiting, its descriptor is readable exactly if a `wait`
would have something to return: an event, or the news of a `notify`.
-/

namespace Polling.C68
open Spec EpollM Epoll

/-- The rest of a `wait` after the OS let it go, no call failing; `m`: how often the channel is read. -/
def leave (m : Nat) : List EpollM.Act := List.replicate m .clearRead ++ [.rearm none, .finish]

/-- The descriptor is not readable: a `wait` without a timeout would sleep, and a `wait` with timeout zero returns nothing. -/
theorem epoll_silent (c : EpollM.Cfg) (hok : c.Ok) (s : EpollM.S) (tr : List (Obs EventExtra)) (h : EpollM.Reach c s tr)
    (hph : s.phase = .idle) (hp : pollIn c s.k = false) (cap : Nat) (hcap : cap > 0) :
    (∃ s1 obs, runActs c s (C06.enter none cap) = some (s1, obs) ∧ EpollM.step c s1 .epollReturn = none) ∧
    (s.k.time ≤ unixMaxNs → ∃ m s2 obs, runActs c s (C06.enter (some ⟨0, by decide⟩) cap ++ .epollReturn :: leave m) = some (s2, .waitOk 0 [] :: obs)) := by
  have hcold : ∀ timeout s1 dl to t0, runActs c s (C06.enter timeout cap) = some (s1, [.tau, .tau, .tau, .waitBegin]) →
      s1.phase = .polling dl cap to t0 → s1.k.rdl = s.k.rdl →
      (∀ fd, hot (ready c s1.k) s1.k.items fd = (hot (ready c s.k) s.k.items fd && !(c.hasTimer && fd == c.timerFd))) →
      (harvest c s1.k cap).1 = [] := by
    intro timeout s1 dl to t0 hrun hph1 hrdl hhot
    rw [harvest_nil (reach_kinv hok (run_reach h hrun)).l hcap]
    intro fd hfd
    rw [hrdl] at hfd
    rw [hhot fd]
    rw [pollIn_hot, List.any_eq_false] at hp
    have := hp fd hfd
    simp only [Bool.not_eq_true] at this
    rw [this, Bool.false_and]
  constructor
  · obtain ⟨s1, dl, to, t0, hrun, hph1, hdl, hto, _, _, _, hrdl, hhot⟩ := enter_hot hok h hph none hcap
    refine ⟨s1, _, hrun, return_disabled hph1 (hcold _ _ _ _ _ hrun hph1 hrdl hhot) ?_⟩
    rw [hto, hdl]
    rfl
  · intro htime
    obtain ⟨s1, dl, to, t0, hrun, hph1, hdl, hto, ht0, htm, _, hrdl, hhot⟩ := enter_hot hok h hph (some ⟨0, by decide⟩) hcap
    have hnil := hcold _ _ _ _ _ hrun hph1 hrdl hhot
    have hdl' : dl = some s.k.time := by
      rw [hdl]
      show instantCheckedAdd unixMaxNs s.k.time ⟨0, _⟩ = _
      unfold instantCheckedAdd
      rw [if_pos (by exact htime)]
      rfl
    have hms : epollTimeoutMs c.hasTimer to = 0 := by
      rw [hto, hdl']
      simp [epollTimeoutMs, saturatingSince]
    have hret := return_enabled hph1 (.inr (by rw [hms, ht0, htm]; simp [EpollM.timeUp]))
    obtain ⟨m, s2, obs, hend, _⟩ := C04.epoll_wait_ends c hok _ _ (.step (run_reach h hrun) hret) dl cap _ rfl
    rw [hnil] at hend
    rw [hnil] at hret
    have hrest : runActs c s1 (.epollReturn :: leave m) = some (s2, .waitOk 0 [] :: (obs ++ [.deliver []])) := by
      simp only [runActs, hret, Option.bind_some, leave]
      rw [hend]
      rfl
    exact ⟨m, s2, _, run_append hrun hrest⟩

/-- The descriptor is readable.  If no `notify` returned since the last successful `wait` began, and the time of no `wait` with a timeout
is over (of the last successful one, or one that failed since) or the latest `wait` returned for that reason, then every `wait` gets
events at once, whatever its timeout.  (Without a timerfd the timeouts do not matter.)  Missing for the full property: a `wait` that got
its events early leaves the timer running, and the descriptor becomes readable when it expires, see `epoll_alarm_false`. -/
theorem epoll_alarm_partial (c : EpollM.Cfg) (hok : c.Ok) (P : EpollM.Act → Prop) (s : EpollM.S) (l : List (EpollM.Act × Obs EventExtra))
    (h : Runs (fun s => ∃ user, s = EpollM.init c user) (EpollM.step c) P s l) (hph : s.phase = .idle) (hp : pollIn c s.k = true)
    (hn : recent false (l.filterMap nest) = false)
    (ht : c.hasTimer = true → overdue false 0 (l.filterMap nest) = false ∨ timedOut (l.filterMap nest) = true)
    (timeout : Option Duration) (cap : Nat) (hcap : cap > 0) :
    ∃ m s2 n shown obs, runActs c s (C06.enter timeout cap ++ .epollReturn :: leave m) = some (s2, .waitOk n shown :: obs) ∧ shown ≠ [] := by
  have hr := runs_reach h
  have hnst := reach_nst h
  rw [hph] at hnst
  have hcnt : s.k.count = 0 := by
    cases hc : s.k.count with
    | zero => rfl
    | succ n =>
      have := hnst.cnt (by omega)
      simp only [emptied] at this
      rw [hn] at this; cases this
  have htick : c.hasTimer = true → s.k.ticks = false ∨ s.k.items c.timerFd ≠ some ⟨ARMED, NK⟩ := by
    intro htm
    rcases ht htm with ht | ht
    · left
      cases hk : s.k.ticks with
      | false => rfl
      | true =>
        have := hnst.tck htm hk
        simp only [setBy] at this
        rw [ht] at this; cases this
    · have hsp := reach_spt hok htm h
      rw [hph] at hsp
      rcases hsp ht with h1 | h1
      · exact .inr h1
      · exact .inl h1.1
  rw [pollIn_hot, List.any_eq_true] at hp
  obtain ⟨fd, hfd, hhot0⟩ := hp
  obtain ⟨s1, dl, to, t0, hrun, hph1, _, _, _, _, hcnt1, hrdl, hhot⟩ := enter_hot hok hr hph timeout hcap
  have hk1 := reach_kinv hok (run_reach hr hrun)
  -- the notifier has nothing to report
  have hnotif : hot (ready c s1.k) s1.k.items c.notifFd = false := by
    have h0 : ready c s1.k c.notifFd = 0#32 := by
      unfold ready
      rw [if_pos rfl, if_neg (by omega)]
    unfold hot rev
    rw [h0]
    cases s1.k.items c.notifFd <;> simp
  have hnt : c.hasTimer = true → fd ≠ c.timerFd := by
    rintro htm rfl
    have h0 : ready c s.k c.timerFd = if s.k.ticks then IN else 0#32 := by
      unfold ready
      rw [if_neg (hok htm), if_pos ⟨htm, rfl⟩]
    unfold hot rev at hhot0
    rw [h0] at hhot0
    rcases htick htm with hx | hx
    · rw [hx] at hhot0
      cases hi : s.k.items c.timerFd <;> simp [hi] at hhot0
    · rcases (reach_kinv hok hr).r.timer htm with e | e | e
      · exact hx e
      · rw [e] at hhot0; revert hhot0; cases s.k.ticks <;> decide
      · rw [e] at hhot0; revert hhot0; cases s.k.ticks <;> decide
  have hne : (harvest c s1.k cap).1 ≠ [] := by
    intro he
    have := (harvest_nil hk1.l hcap).1 he fd (by rw [hrdl]; exact hfd)
    rw [hhot fd, hhot0] at this
    cases htm : c.hasTimer with
    | false => simp [htm] at this
    | true => simp [htm, hnt htm] at this
  have hret := return_enabled hph1 (.inl hne)
  obtain ⟨m, s2, obs, hend, _⟩ := C04.epoll_wait_ends c hok _ _ (.step (run_reach hr hrun) hret) dl cap _ rfl
  have hrest : runActs c s1 (.epollReturn :: leave m) = some (s2, .waitOk (visible (harvest c s1.k cap).1).length (visible (harvest c s1.k cap).1) ::
      (obs ++ [.deliver (((harvest c s1.k cap).1.filter fun e => !c.internal e.1).map fun e => (e.1, toEvent e.2))])) := by
    simp only [runActs, hret, Option.bind_some, leave]
    rw [hend]
    rfl
  refine ⟨m, s2, _, _, _, run_append hrun hrest, ?_⟩
  -- what is reported is not of the poller itself
  obtain ⟨e, es, hes⟩ := List.exists_cons_of_ne_nil hne
  have hmem : e ∈ (harvest c s1.k cap).1 := by rw [hes]; exact List.mem_cons_self ..
  have hint : c.internal e.1 = false := by
    obtain ⟨pre, rest, h1, h2, h3, h4, _⟩ := harvest_spec hk1.l cap
    rw [h2, List.mem_map] at hmem
    obtain ⟨x, hx, rfl⟩ := hmem
    have hx2 := (List.mem_filter.1 hx).2
    show c.internal x = false
    cases hi : c.internal x with
    | false => rfl
    | true =>
      rcases internal_cases hi with rfl | ⟨htm, rfl⟩
      · rw [hnotif] at hx2; cases hx2
      · rw [hhot, htm] at hx2; simp at hx2
  rw [visible_user hk1]
  intro he
  rw [List.map_eq_nil_iff, List.map_eq_nil_iff, List.filter_eq_nil_iff] at he
  exact he e hmem (by rw [hint]; rfl)

/-- A source for which the program waits has a condition it asked for: the descriptor is readable. -/
theorem epoll_tells_events (c : EpollM.Cfg) (hok : c.Ok) (s : EpollM.S) (tr : List (Obs EventExtra)) (h : EpollM.ReachP c EpollM.RearmWorks s tr)
    (hph : s.phase = .idle) (fd : Fd) (key : Key) (r w : Bool) (mode : PollMode) (hask : Live.Asked (tr.flatMap Live.ofObs) fd key r w mode)
    (i : Nat) (hw : Live.Wants r w i) (hi : Reported (s.k.user fd) i) : pollIn c s.k = true := by
  obtain ⟨cu, hc, rfl, hr, hwr, rfl, hm⟩ := Live.asked_current (EpollM.reach_orderly hok h) (by rw [← EpollM.reach_open hok h, hph]; rfl) hask
  have hp : EpollPending cu.ev (s.k.user fd) := by
    refine ⟨i, ?_, hi, ?_⟩
    · rcases hw with ⟨_, h | h⟩ | ⟨_, h⟩ | h | h <;> subst h <;> decide
    · rw [← hr, ← hwr] at hw
      rcases hw with h | h | h | h
      · exact .inl h
      · exact .inr (.inl h)
      · exact .inr (.inr (.inl h))
      · exact .inr (.inr (.inr (.inl h)))
  have hk := reach_kinv hok h.reach
  have hf := (hk.r.curOk fd cu hc).1
  have hlive : live cu = true := by
    unfold live
    rcases hm with hm | ⟨_, hm⟩
    · rw [hm]; simp [oneshot]
    · rw [hm]; rfl
  have hhot := (hot_user hk hf).2 ⟨cu, hc, hlive, (pending_iff cu _).2 hp⟩
  rw [pollIn_hot, List.any_eq_true]
  refine ⟨fd, ?_, hhot⟩
  have hit : s.k.items fd = some ⟨asked cu, keyToU64 cu.ev.key⟩ := by rw [hk.r.user fd hf, hc]; exact congrArg some (itemOf_live cu hlive)
  refine hk.l.linked fd _ hit ?_ ?_
  · have he := itemOf_et cu (hk.r.curOk fd cu hc).2.2
    rw [itemOf_live cu hlive] at he
    rw [he]
    rcases hm with hm | ⟨hm, _⟩ <;> rw [hm] <;> rfl
  · rw [ready_user hf]; exact (pending_iff cu _).2 hp

/-- A `notify` returned and no `wait` since: the descriptor is readable, or it will be as soon as the `notify` call of another thread
has done its write. -/
theorem epoll_tells_notify (c : EpollM.Cfg) (hok : c.Ok) (s : EpollM.S) (tr : List (Obs EventExtra)) (h : EpollM.ReachP c EpollM.RearmWorks s tr)
    (hph : s.phase = .idle) (hn : owed tr = true) :
    pollIn c s.k = true ∨ ∃ s1, EpollM.step c s .notifyWrite = some (s1, .notified) ∧ pollIn c s1.k = true := by
  have key : ∀ (s : EpollM.S) (tr : List (Obs EventExtra)), EpollM.ReachP c EpollM.RearmWorks s tr → s.phase = .idle → s.k.count > 0 → pollIn c s.k = true := by
    intro s tr h hph hc
    have hk := reach_kinv hok h.reach
    have ha := (reach_N hok h).armed (by rw [hph]; exact id)
    have hne := mt (harvest_nil hk.l (Nat.one_pos)).2 (notif_ready hk.l ha hc Nat.one_pos)
    rw [pollIn_hot]
    cases he : s.k.rdl.any (hot (ready c s.k) s.k.items) with
    | true => rfl
    | false =>
      rw [List.any_eq_false] at he
      exact absurd (fun fd hfd => by simpa using he fd hfd) hne
  rcases (reach_N hok h).chan (.inr hn) with hc | hi | hl
  · exact .inl (key s tr h hph hc)
  · right
    have hs : EpollM.step c s .notifyWrite = some ({ s with k := link { s.k with count := s.k.count + 1 } c.notifFd IN, inflight := s.inflight - 1 }, .notified) := by
      simp only [EpollM.step]; rw [if_pos hi]
    refine ⟨_, hs, key _ _ (h.step (a := .notifyWrite) trivial hs) hph ?_⟩
    dsimp only
    rw [link_eq]
    exact Nat.succ_pos _
  · rw [hph] at hl; exact hl.elim

/-- No thread is waiting. -/
def idle : EpollM.Phase → Bool
  | .idle => true
  | _ => false

/-- What a `wait` that has just returned gave. -/
def result : List (Obs EventExtra) → Option (Nat × List Key)
  | .waitOk n evs :: _ => some (n, evs.map Event.key)
  | _ => none

/-- A summary of a run and of a further `wait` (with timeout zero and room for eight) at its end: no thread is waiting, the descriptor is
readable, a `notify` returned, a timeout is over, the latest `wait`
returned for that reason, and the number and the keys that the `wait` returns. -/
def summary (c : EpollM.Cfg) (user : Fd → Flags) (as : List EpollM.Act) : Option (List Bool × Option (Nat × List Key)) :=
  (runLog (EpollM.step c) (EpollM.init c user) as []).map fun r =>
    ([idle r.1.phase, pollIn c r.1.k, recent false (r.2.filterMap nest), overdue false 0 (r.2.filterMap nest), timedOut (r.2.filterMap nest)],
     (runActs c r.1 (C06.enter (some ⟨0, by decide⟩) 8 ++ .epollReturn :: leave 1)).bind fun q => result q.2)

/-- A whole `wait`. -/
def waitFor (timeout : Option Duration) : List EpollM.Act := C06.enter timeout 8 ++ .epollReturn :: leave 1

/-- The run: 5 ms are allowed, an event is there, and 5 ms pass. -/
def early : List EpollM.Act :=
  [.add 7 (Event.onlyReadable 11) .oneshot none] ++ waitFor (some ⟨5000000, by decide⟩) ++ [.tick 5000000]

/-- The run: 5 ms are allowed, and pass. -/
def lapsed : List EpollM.Act :=
  [.add 7 (Event.onlyReadable 11) .oneshot none] ++ C06.enter (some ⟨5000000, by decide⟩) 8 ++ .tick 5000000 :: .epollReturn :: leave 1

/-- The timer is left running: a `wait` with a timeout of 5 ms gets its event at once.  5 ms later the descriptor is readable although
there is nothing to return, and `notify` was never called: a `wait` with timeout zero returns `Ok(0)`. -/
theorem epoll_alarm_false :
    ∃ (c : EpollM.Cfg) (s : EpollM.S) (l : List (EpollM.Act × Obs EventExtra)), c.Ok ∧
      Runs (fun s => ∃ user, s = EpollM.init c user) (EpollM.step c) (fun a => a ≠ .notifyCas) s l ∧ s.phase = .idle ∧ pollIn c s.k = true ∧
      recent false (l.filterMap nest) = false ∧
      ∃ s2 obs, runActs c s (C06.enter (some ⟨0, by decide⟩) 8 ++ .epollReturn :: leave 1) = some (s2, .waitOk 0 [] :: obs) := by
  have h : summary ⟨true, 4, 3, false, 3⟩ (fun _ => 0x1#32) early = some ([true, true, false, true, false], some (0, [])) := by decide +kernel
  unfold summary at h
  rw [Option.map_eq_some_iff] at h
  obtain ⟨⟨s, l⟩, h1, h2⟩ := h
  simp only [Prod.mk.injEq, List.cons.injEq] at h2
  obtain ⟨⟨hi, hp, hr, _⟩, hw⟩ := h2
  rw [Option.bind_eq_some_iff] at hw
  obtain ⟨⟨s2, os⟩, hw1, hw2⟩ := hw
  refine ⟨_, s, l, fun _ => by decide, runs_of_log (.init ⟨_, rfl⟩) ?_ h1, ?_, hp, hr, s2, ?_⟩
  · intro a ha e
    subst e
    simp [early, waitFor, C06.enter, leave] at ha
  · cases hph : s.phase <;> first | rfl | (rw [hph] at hi; cases hi)
  · cases os with
    | nil => cases hw2
    | cons o os =>
      cases o with
      | waitOk n evs =>
        simp only [result, Option.some.injEq, Prod.mk.injEq, List.map_eq_nil_iff] at hw2
        obtain ⟨rfl, rfl⟩ := hw2
        exact ⟨os, hw1⟩
      | _ => cases hw2

/-- Runs that meet the hypotheses.  Nothing happened; an event that nobody has taken, after a `wait` whose time is not over; the same
event taken; a `notify`; a `wait` that timed out, and nothing since; the same and then an event. -/
example :
    summary ⟨true, 4, 3, false, 3⟩ (fun _ => 0#32) [.add 7 (Event.onlyReadable 11) .oneshot none] = some ([true, false, false, false, false], some (0, [])) ∧
    summary ⟨true, 4, 3, false, 3⟩ (fun fd => if fd = 7 then 0x1#32 else 0#32)
      ([.add 7 (Event.onlyReadable 11) .oneshot none] ++ waitFor (some ⟨5000000, by decide⟩) ++
        [.setReady 8 0x1#32 0x1#32, .add 8 (Event.onlyReadable 12) .edge none, .tick 4999999]) =
      some ([true, true, false, false, false], some (1, [12])) ∧
    summary ⟨true, 4, 3, false, 3⟩ (fun _ => 0x1#32) ([.add 7 (Event.onlyReadable 11) .oneshot none] ++ waitFor none) =
      some ([true, false, false, false, false], some (0, [])) ∧
    summary ⟨true, 4, 3, false, 3⟩ (fun _ => 0#32) [.notifyCas, .notifyWrite] = some ([true, true, true, false, false], some (0, [])) ∧
    summary ⟨true, 4, 3, false, 3⟩ (fun _ => 0#32) (lapsed ++ [.tick 1]) = some ([true, false, false, true, true], some (0, [])) ∧
    summary ⟨true, 4, 3, false, 3⟩ (fun _ => 0#32) (lapsed ++ [.setReady 7 0x1#32 0x1#32, .tick 1]) = some ([true, true, false, true, true], some (1, [11])) := by
  refine ⟨?_, ?_, ?_, ?_, ?_, ?_⟩ <;> decide +kernel

end Polling.C68
