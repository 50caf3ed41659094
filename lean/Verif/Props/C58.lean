import Verif.Proof.LiveEpoll
import Verif.Props.C16Epoll
import Verif.Props.C43
import Verif.Props.C04Epoll
import Verif.Props.PortNotify

/-! C58: a program that asked for an event gets it: epoll and event ports. -/

namespace Polling.C58
open Spec Live

/-- In every reachable state of the epoll poller (any failures of OS calls except of re-arming the notifier): the program's latest
call for a source was a successful `add` or `modify` in level or one-shot mode, in one-shot mode it has not been told since, and
one of the conditions it asked for (or error, or hang-up) holds.  Then a `wait` in the OS does not sleep: the OS lets it go at once,
and by its own steps it returns events, an event with the key the program gave among them - unless the buffer is full. -/
theorem epoll_live (c : EpollM.Cfg) (hok : c.Ok) (s : EpollM.S) (tr : List (Spec.Obs Epoll.EventExtra))
    (h : EpollM.ReachP c EpollM.RearmWorks s tr) (dl cap to t0) (hph : s.phase = .polling dl cap to t0)
    (fd : Fd) (key : Key) (r w : Bool) (mode : PollMode) (hask : Asked (tr.flatMap ofObs) fd key r w mode)
    (i : Nat) (hw : Wants r w i) (hi : Reported (s.k.user fd) i) :
    ∃ s1 evs raw m s2 n shown obs, EpollM.step c s .epollReturn = some (s1, .deliver evs) ∧ s1.phase = .clearing dl cap raw ∧
      EpollM.runActs c s1 (List.replicate m .clearRead ++ [.rearm none, .finish]) = some (s2, .waitOk n shown :: obs) ∧
      (key ∈ shown.map Event.key ∨ raw.length = cap) := by
  obtain ⟨cu, hc, rfl, hr, hwr, rfl, hm⟩ := asked_current (EpollM.reach_orderly hok h)
    (by rw [← EpollM.reach_open hok h, hph]; rfl) hask
  have hp : EpollPending cu.ev (s.k.user fd) := by
    refine ⟨i, ?_, hi, ?_⟩
    · rcases hw with ⟨_, h | h⟩ | ⟨_, h⟩ | h | h <;> subst h <;> decide
    · rw [← hr, ← hwr] at hw
      rcases hw with h | h | h | h
      · exact .inl h
      · exact .inr (.inl h)
      · exact .inr (.inr (.inl h))
      · exact .inr (.inr (.inr (.inl h)))
  obtain ⟨s1, evs, hs⟩ := C16.epoll_level_not_asleep c hok s tr h dl cap to t0 hph fd cu hc hm hp
  have hr1 : EpollM.Reach c s1 (.deliver evs :: tr) := .step h.reach hs
  have hin := C16.epoll_level c hok s s1 tr h.reach _ evs hs fd cu hc hm hp
  have hph1 : ∃ raw, s1.phase = .clearing dl cap raw := by
    obtain ⟨_, dl', cap', to', t0', hph', _, rfl, _⟩ := EpollM.deliver_inv hs
    rw [hph] at hph'; cases hph'; exact ⟨_, rfl⟩
  obtain ⟨raw, hph1⟩ := hph1
  obtain ⟨m, s2, obs, hrun, _, _, _, _, _, _, htau⟩ := C04.epoll_wait_ends c hok s1 _ hr1 dl cap raw hph1
  refine ⟨s1, evs, raw, m, s2, _, _, obs, hs, hph1, hrun, ?_⟩
  rcases hin with ⟨e, he⟩ | ⟨dl', cap', raw', hp', hl⟩
  · refine .inl ?_
    have hr2 := EpollM.run_reach hr1 hrun
    obtain ⟨ds, h1, h2, _⟩ := C02.epoll_shows_exactly_the_delivered c hok s2 (obs ++ .deliver evs :: tr) _ _ hr2
    have hld : ∀ l : List (Spec.Obs Epoll.EventExtra), (∀ o ∈ l, o = .tau) → lastDelivery (l ++ .deliver evs :: tr) = some evs := by
      intro l
      induction l with
      | nil => intro _; rfl
      | cons x l ih =>
        intro hl
        rw [hl x (List.mem_cons_self ..)]
        exact ih fun o ho => hl o (List.mem_cons_of_mem _ ho)
    rw [hld obs htau] at h1
    cases h1
    rw [h2]
    obtain ⟨cu', hc', hk⟩ := C03.epoll_right_key c hok s1 _ hr1 [] evs tr rfl fd e he
    rw [hc] at hc'; cases hc'
    rw [← hk]
    exact List.mem_map_of_mem (List.mem_map_of_mem he)
  · rw [hph1] at hp'; cases hp'; exact .inr hl

/-- The same for event ports, with any failures of OS calls. -/
theorem port_live (n : Nat) (P) (s : PortM.S) (tr : List (Spec.Obs Port.EventExtra)) (h : PortM.Reach n P s tr)
    (dl cap to t0) (hph : s.phase = .polling dl cap to t0) (fd : Fd) (key : Key) (r w : Bool) (mode : PollMode)
    (hask : Asked (tr.flatMap ofObs) fd key r w mode) (i : Nat) (hw : Wants r w i) (hi : Reported (s.k.cond fd) i) :
    ∃ s1 evs raw s2 k shown, PortM.step n s .getn = some (s1, .deliver evs) ∧ s1.phase = .taken raw ∧
      PortM.step n s1 .finish = some (s2, .waitOk k shown) ∧ (key ∈ shown.map Event.key ∨ raw.length = cap) := by
  obtain ⟨cu, hc, rfl, rfl, rfl, rfl, hm⟩ := asked_current (PortM.reach_orderly h) (by rw [← PortM.reach_open h, hph]; rfl) hask
  have hk := PortM.reach_ki h
  have hreg := hk.reg fd
  rw [hc] at hreg
  obtain ⟨hkey, hmode, ha⟩ := hreg
  have hf : cu.fired = false := by
    rcases hm with hm | ⟨_, hm⟩
    · rw [hmode] at hm; cases hm
    · exact hm
  rw [hf] at ha
  have hq := C43.port_ready_is_queued n P s tr h fd cu hc hf i hi hw
  have hne : s.k.queue ≠ [] := by intro he; rw [he] at hq; cases hq
  have hs : ∃ s1 evs, PortM.step n s .getn = some (s1, .deliver evs) := by
    simp only [PortM.step, hph, if_pos hne]
    exact ⟨_, _, rfl⟩
  obtain ⟨s1, evs, hs⟩ := hs
  obtain ⟨_, dl', cap', to', t0', hph', h1⟩ := PortM.deliver_inv hs
  rw [hph] at hph'; cases hph'
  rcases h1 with ⟨_, rfl, rfl⟩ | ⟨hq', _⟩
  rotate_left
  · exact (hne hq').elim
  obtain ⟨s2, hs2, _⟩ := (C04.port_wait_goes_on n { s with k := (PortM.getn s.k cap).2, phase := .taken (PortM.getn s.k cap).1 }).2 _ rfl
  refine ⟨_, _, _, s2, _, _, hs, rfl, hs2, ?_⟩
  by_cases hin : .fd fd ∈ s.k.queue.take cap
  · refine .inl (List.mem_map.2 ⟨Port.toEvent (PortM.rawOf s.k (.fd fd)).2, ?_, ?_⟩)
    · unfold PortM.visible PortM.getn
      refine List.mem_filter.2 ⟨List.mem_map.2 ⟨_, List.mem_map.2 ⟨_, hin, rfl⟩, rfl⟩, ?_⟩
      simp only [PortM.rawOf, ha, Port.toEvent, bne_iff_ne, ne_eq]
      simpa [u64ToKey, keyToU64] using hkey
    · simp only [PortM.rawOf, ha, Port.toEvent]
      simp [u64ToKey, keyToU64]
  · refine .inr ?_
    unfold PortM.getn
    dsimp only
    rw [List.length_map, List.length_take]
    by_cases hl : cap ≤ s.k.queue.length
    · exact Nat.min_eq_left hl
    · rw [List.take_of_length_le (Nat.le_of_lt (Nat.lt_of_not_le hl))] at hin
      exact (hin hq).elim

/-! Runs that meet the hypotheses: source 7 is reported with its first key and armed again with another one, source 8 is reported,
and a further `wait` is in the OS. -/

/-- What the program of the runs below sees. -/
def seen (t : Tid) : List Live.Obs :=
  [.waitOk [27], .ret t true, .begin t (.set 8 27 true false .oneshot), .ret t true, .begin t (.set 7 18 true false .oneshot),
   .waitOk [17], .ret t true, .begin t (.set 7 17 true false .oneshot)]

theorem seen_asked (t : Tid) : Asked (seen t) 7 18 true false .oneshot :=
  ⟨[.waitOk [27], .ret t true, .begin t (.set 8 27 true false .oneshot), .ret t true], t,
    [.waitOk [17], .ret t true, .begin t (.set 7 17 true false .oneshot)], rfl, by simp [outcome],
    by
      intro u call h
      simp only [List.mem_cons, reduceCtorEq, false_or, List.not_mem_nil, or_false, Obs.begin.injEq] at h
      rw [h.2]; decide,
    (by intro u call h; simp only [calling] at h; split at h <;> cases h), .inr ⟨rfl, by simp, by
      intro keys h
      simp only [List.mem_cons, reduceCtorEq, or_false, List.not_mem_nil, Live.Obs.waitOk.injEq] at h
      rw [h]; decide⟩⟩

example : ∃ s tr dl cap to t0, EpollM.ReachP EpollM.exCfg EpollM.RearmWorks s tr ∧ s.phase = .polling dl cap to t0 ∧
    tr.flatMap ofObs = seen 0 ∧ Reported (s.k.user 7) cIn ∧ Wants true false cIn := by
  have h : (EpollM.runActs EpollM.exCfg (EpollM.init EpollM.exCfg fun _ => 0#32)
      ([.add 7 (Event.onlyReadable 17) .oneshot none, .setReady 7 Epoll.IN Epoll.IN] ++ EpollM.waitActs 8 ++
        [.setReady 7 0 0, .modify 7 (Event.onlyReadable 18) .oneshot none, .add 8 (Event.onlyReadable 27) .oneshot none,
         .setReady 8 Epoll.IN Epoll.IN] ++ EpollM.waitActs 8 ++ [.setReady 7 Epoll.IN Epoll.IN] ++ (EpollM.waitActs 8).take 4)).map
      (fun x => (x.1.phase, x.2.flatMap ofObs, (x.1.k.user 7).getLsbD cIn)) = some (.polling none 8 none 0, seen 0, true) := by decide +kernel
  rw [Option.map_eq_some_iff] at h
  obtain ⟨⟨s, tr⟩, hr, he⟩ := h
  simp only [Prod.mk.injEq] at he
  refine ⟨s, tr, _, _, _, _, ?_, he.1, he.2.1, he.2.2, .inl ⟨rfl, .inl rfl⟩⟩
  have := EpollM.run_reachP (P := EpollM.RearmWorks) (.init _) (by simp [EpollM.waitActs, EpollM.RearmWorks]) hr
  simpa using this

example : ∃ s tr dl cap to t0, PortM.Reach 3 PortM.Any s tr ∧ s.phase = .polling dl cap to t0 ∧
    tr.flatMap ofObs = seen 0 ∧ Reported (s.k.cond 7) cIn := by
  have h : (PortM.runActs 3 (PortM.init fun _ => 0#16)
      ([.add 7 (Event.onlyReadable 17) .oneshot none, .setReady 7 PollFlags.IN PollFlags.IN] ++ PortM.waitActs 8 ++
        [.setReady 7 0 0, .modify 7 (Event.onlyReadable 18) .oneshot none, .add 8 (Event.onlyReadable 27) .oneshot none,
         .setReady 8 PollFlags.IN PollFlags.IN] ++ PortM.waitActs 8 ++ [.setReady 7 PollFlags.IN PollFlags.IN] ++ (PortM.waitActs 8).take 2)).map
      (fun x => (x.1.phase, x.2.flatMap ofObs, (x.1.k.cond 7).getLsbD cIn)) = some (.polling none 8 none 0, seen 0, true) := by decide +kernel
  rw [Option.map_eq_some_iff] at h
  obtain ⟨⟨s, tr⟩, hr, he⟩ := h
  simp only [Prod.mk.injEq] at he
  refine ⟨s, tr, _, _, _, _, ?_, he.1, he.2.1, he.2.2⟩
  have := PortM.run_reach (P := PortM.Any) (.init _) (by intros; trivial) hr
  simpa using this

end Polling.C58
