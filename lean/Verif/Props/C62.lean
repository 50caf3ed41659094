import Verif.Spec.Interest
import Verif.Props.C20Epoll
import Verif.Props.PortCalls
import Verif.Props.PollDelivery
import Verif.Props.KqDelivery
import Verif.Props.IocpDelivery
import Verif.Props.C58
import Verif.Props.C58Poll

/-! C62: a source delivers what it was asked for, and nothing if it was asked for nothing. -/

namespace Polling.C62
open Spec

/-! ### epoll -/

section Epoll
open EpollM Epoll

/-- Every event taken in any history of the epoll poller, with any interleaving and any failures: the source is registered, and for an
interest built with the methods of `Event` the event is within the interest in force, apart from error and hang-up.
Missing: those are delivered whatever the interest, see `epoll_disabled_repeats`. -/
theorem epoll_within_partial (c : Cfg) (hok : c.Ok) (s : S) (tr : List (Obs EventExtra)) (h : Reach c s tr) :
    EveryDelivery (fun cur evs => ∀ fd e, (fd, e) ∈ evs → ∃ cu, cur fd = some cu ∧
      ((∀ i, Reported cu.ev.extra.flags i → i = cPri ∨ i = cHup) →
        Within (cu.ev.readable = true) (cu.ev.writable = true) (Reported cu.ev.extra.flags cPri) (Fault e.extra.flags)
          e.readable e.writable)) tr := by
  refine everyDelivery_of ?_ h
  intro s tr a s' evs hr hs fd e hm
  obtain ⟨cu, hc, ⟨j, hj, hj1, hj2⟩, hR, hW, hF⟩ := C20.epoll_delivery_faithful c hok s s' tr hr a evs hs fd e hm
  refine ⟨cu, hc, fun hx => ?_⟩
  have key : ∀ i, i < 28 → Reported (s.k.user fd) i → EpollWatches cu.ev i →
      (cu.ev.readable = true ∧ (i = cIn ∨ i = cPri)) ∨ (cu.ev.writable = true ∧ i = cOut) ∨
      (Reported cu.ev.extra.flags cPri ∧ i = cPri) ∨ Fault e.extra.flags := by
    intro i hi h1 h2
    have h3 := (hF i hi).2 ⟨h1, h2⟩
    rcases h2 with h | h | h | h | h
    · exact .inl h
    · exact .inr (.inl h)
    · subst h; exact .inr (.inr (.inr (.inl h3)))
    · subst h; exact .inr (.inr (.inr (.inr h3)))
    · rcases hx i h with rfl | rfl
      · exact .inr (.inr (.inl ⟨h, rfl⟩))
      · exact .inr (.inr (.inr (.inr h3)))
  refine ⟨fun he => ?_, fun he => ?_, ?_⟩
  · obtain ⟨i, hi, h1, h2⟩ := hR.1 he
    have hlt : i < 28 := by
      simp only [List.mem_cons, List.not_mem_nil, or_false] at hi
      rcases hi with rfl | rfl | rfl | rfl <;> decide
    rcases key i hlt h1 h2 with h | ⟨_, h⟩ | h | h
    · exact .inl h.1
    · subst h; exact absurd hi (by decide)
    · exact .inr (.inl h.1)
    · exact .inr (.inr h)
  · obtain ⟨i, hi, h1, h2⟩ := hW.1 he
    have hlt : i < 28 := by
      simp only [List.mem_cons, List.not_mem_nil, or_false] at hi
      rcases hi with rfl | rfl | rfl <;> decide
    rcases key i hlt h1 h2 with ⟨_, h | h⟩ | h | ⟨_, h⟩ | h
    · subst h; exact absurd hi (by decide)
    · subst h; exact absurd hi (by decide)
    · exact .inl h.1
    · subst h; exact absurd hi (by decide)
    · exact .inr h
  · rcases key j hj hj1 hj2 with h | h | h | h
    · exact .inl h.1
    · exact .inr (.inl h.1)
    · exact .inr (.inr (.inl h.1))
    · exact .inr (.inr (.inr h))

/-- In particular: after `modify` with `Event::none` (or `add` with it) an event is delivered only if it reports an error or a hang-up. -/
theorem epoll_disabled_partial (c : Cfg) (hok : c.Ok) (s : S) (tr : List (Obs EventExtra)) (h : Reach c s tr) :
    EveryDelivery (fun cur evs => ∀ fd e cu, (fd, e) ∈ evs → cur fd = some cu → cu.ev = Event.none cu.ev.key →
      Fault e.extra.flags) tr := by
  intro later evs earlier he fd e cu hm hc hn
  obtain ⟨cu', hc', hw⟩ := epoll_within_partial c hok s tr h later evs earlier he fd e hm
  rw [hc] at hc'; cases hc'
  have h0 : ∀ i, ¬ Reported cu.ev.extra.flags i := by
    intro i; rw [hn]; simp [Event.none, Reported, Event.new, Extra.empty]
  rcases (hw fun i hi => absurd hi (h0 i)).some with h | h | h | h
  · rw [hn] at h; cases h
  · rw [hn] at h; cases h
  · exact absurd h (h0 _)
  · exact h

/-- The rest is false of the code: in level mode, with interest in nothing, every `wait` returns at once with an event of the source as
long as a hang-up or error holds. -/
theorem epoll_disabled_repeats (c : Cfg) (hok : c.Ok) (s : S) (tr : List (Obs EventExtra)) (h : ReachP c RearmWorks s tr)
    (dl cap to t0) (hph : s.phase = .polling dl cap to t0) (fd : Fd) (key : Key)
    (hask : Live.Asked (tr.flatMap Live.ofObs) fd key false false .level) (hi : Fault (s.k.user fd)) :
    ∃ s1 evs raw m s2 n shown obs, step c s .epollReturn = some (s1, .deliver evs) ∧ s1.phase = .clearing dl cap raw ∧
      runActs c s1 (List.replicate m .clearRead ++ [.rearm none, .finish]) = some (s2, .waitOk n shown :: obs) ∧
      (key ∈ shown.map Event.key ∨ raw.length = cap) := by
  rcases hi with hi | hi
  · exact C58.epoll_live c hok s tr h dl cap to t0 hph fd key false false .level hask cErr (.inr (.inr (.inl rfl))) hi
  · exact C58.epoll_live c hok s tr h dl cap to t0 hph fd key false false .level hask cHup (.inr (.inr (.inr rfl))) hi

/-- Descriptor 7 is set to `Event::none`: it is readable and writable, but only the event of descriptor 8 is returned; it hangs up, and
both further `wait`s return an event, readable and writable. -/
example : (exTrace exCfg (fun _ => 0#32)
    ([.add 7 (Event.onlyReadable 17) .level none, .modify 7 (Event.none 18) .level none, .add 8 (Event.onlyReadable 27) .oneshot none,
        .setReady 7 (IN ||| OUT) (IN ||| OUT), .setReady 8 IN IN] ++ waitActs 8 ++ [.setReady 7 (IN ||| OUT ||| HUP) HUP] ++ waitActs 8 ++ waitActs 8)).map
      (fun tr => tr.filterMap fun o => match o with | .waitOk _ evs => some (evs.map fun e => (e.key, e.readable, e.writable)) | _ => none) =
    some [[(18, true, true)], [(18, true, true)], [(27, true, false)]] := by decide +kernel

/-- What the program of the runs below sees: source 7 is set to `Event::none`, and a `wait` returns its event. -/
def seen (t : Tid) : List Live.Obs :=
  [.waitOk [18], .ret t true, .begin t (.set 7 18 false false .level), .ret t true, .begin t (.set 7 17 true false .level)]

theorem seen_asked (t : Tid) : Live.Asked (seen t) 7 18 false false .level :=
  ⟨[.waitOk [18], .ret t true], t, [.ret t true, .begin t (.set 7 17 true false .level)], rfl, by simp [Live.outcome],
    by intro u call h; simp at h,
    (by intro u call h; simp only [Live.calling] at h; split at h <;> cases h), .inl rfl⟩

/-- A state that meets the hypotheses of `epoll_disabled_repeats`: it happened already. -/
example : ∃ s tr dl cap to t0, ReachP exCfg RearmWorks s tr ∧ s.phase = .polling dl cap to t0 ∧
    Live.Asked (tr.flatMap Live.ofObs) 7 18 false false .level ∧ Fault (s.k.user 7) := by
  have h : (runActs exCfg (EpollM.init exCfg fun _ => 0#32)
      ([.add 7 (Event.onlyReadable 17) .level none, .modify 7 (Event.none 18) .level none, .setReady 7 HUP HUP] ++ waitActs 8 ++
        (waitActs 8).take 4)).map
      (fun x => (x.1.phase, x.2.flatMap Live.ofObs, (x.1.k.user 7).getLsbD cHup)) = some (.polling none 8 none 0, seen 0, true) := by decide +kernel
  rw [Option.map_eq_some_iff] at h
  obtain ⟨⟨s, tr⟩, hr, he⟩ := h
  simp only [Prod.mk.injEq] at he
  refine ⟨s, tr, _, _, _, _, ?_, he.1, by rw [he.2.1]; exact seen_asked 0, .inr he.2.2⟩
  have := run_reachP (P := RearmWorks) (.init _) (by simp [waitActs, RearmWorks]) hr
  simpa using this

end Epoll

/-! ### event ports -/

section Ports
open PortM Port

/-- The same for event ports.  (They watch no extra conditions.)
Missing: error, hang-up and "invalid descriptor" are delivered whatever the interest, see `port_disabled_delivers`. -/
theorem port_within_partial (n : Nat) (P) (s : S) (tr : List (Obs EventExtra)) (h : Reach n P s tr) :
    EveryDelivery (fun cur evs => ∀ fd e, (fd, e) ∈ evs → ∃ cu, cur fd = some cu ∧
      Within (cu.ev.readable = true) (cu.ev.writable = true) False (PollFault e.extra.flags) e.readable e.writable) tr := by
  intro later evs earlier he fd e hm
  obtain ⟨cu, hc, ⟨j, hj⟩, hall⟩ := C20.port_delivery_asked n P s tr h later evs earlier he fd e hm
  obtain ⟨s0, a, s1, hr, _, hs⟩ := reach_split h later _ earlier he
  obtain ⟨_, _, _, _, _, _, _, rfl⟩ := delivered (reach_ki hr) hs hm
  generalize hraw : (⟨(s0.k.pend fd).setWidth 32, _⟩ : RawEvent) = raw at hj hall
  have hx : ∀ i, i ∈ [cIn, cPri, cOut, cErr, cHup] → Reported raw.events i → Reported (toEvent raw).extra.flags i := by
    intro i hi h
    have hk : i < 16 ∧ KNOWN.getLsbD i = true := by
      simp only [List.mem_cons, List.not_mem_nil, or_false] at hi
      rcases hi with rfl | rfl | rfl | rfl | rfl <;> decide
    unfold Reported at h
    simp only [toEvent, Reported, BitVec.getLsbD_and, BitVec.getLsbD_setWidth, hk.2, h, hk.1, decide_true, Bool.and_self]
  have key : ∀ i, Reported (toEvent raw).extra.flags i →
      (cu.ev.readable = true ∧ (i = cIn ∨ i = cPri)) ∨ (cu.ev.writable = true ∧ i = cOut) ∨ PollFault (toEvent raw).extra.flags := by
    intro i h
    rcases hall i h with h1 | h1 | rfl | rfl | rfl
    · exact .inl h1
    · exact .inr (.inl h1)
    · exact .inr (.inr (.inl (.inl h)))
    · exact .inr (.inr (.inl (.inr h)))
    · exact .inr (.inr (.inr h))
  refine ⟨cu, hc, fun he => ?_, fun he => ?_, ?_⟩
  · rw [C20.port_readable_iff] at he
    rcases he with h | h | h | h
    · rcases key cIn (hx _ (by decide) h) with h | ⟨_, h⟩ | h
      · exact .inl h.1
      · cases h
      · exact .inr (.inr h)
    · rcases key cPri (hx _ (by decide) h) with h | ⟨_, h⟩ | h
      · exact .inl h.1
      · cases h
      · exact .inr (.inr h)
    · exact .inr (.inr (.inl (.inl (hx _ (by decide) h))))
    · exact .inr (.inr (.inl (.inr (hx _ (by decide) h))))
  · rw [C20.port_writable_iff] at he
    rcases he with h | h | h
    · rcases key cOut (hx _ (by decide) h) with ⟨_, h | h⟩ | h | h
      · cases h
      · cases h
      · exact .inl h.1
      · exact .inr h
    · exact .inr (.inl (.inl (hx _ (by decide) h)))
    · exact .inr (.inl (.inr (hx _ (by decide) h)))
  · rcases key j hj with h | h | h
    · exact .inl h.1
    · exact .inr (.inl h.1)
    · exact .inr (.inr (.inr h))

/-- The rest is false of the code: interest in nothing, a hang-up, and an event is delivered.  (Once: the registration is one-shot,
see `C15.port_oneshot`.) -/
theorem port_disabled_delivers : ∃ s tr evs e cu, Reach 3 Any s (.deliver evs :: tr) ∧ (7, e) ∈ evs ∧ current tr 7 = some cu ∧
    cu.ev = Event.none 18 ∧ e.readable = true ∧ e.writable = true := by
  have h : (runActs 3 (PortM.init fun _ => 0#16)
      ([.add 7 (Event.onlyReadable 17) .oneshot none, .modify 7 (Event.none 18) .oneshot none,
        .setReady 7 PollFlags.HUP PollFlags.HUP] ++ (waitActs 8).take 3)).map
      (fun x => (x.2.head?, (current x.2.tail 7).map Current.ev)) =
      some (some (.deliver [(7, ⟨18, true, true, ⟨PollFlags.HUP⟩⟩)]), some (Event.none 18)) := by decide +kernel
  rw [Option.map_eq_some_iff] at h
  obtain ⟨⟨s, tr⟩, hr, he⟩ := h
  simp only [Prod.mk.injEq] at he
  have := run_reach (P := Any) (.init _) (by intros; trivial) hr
  rw [List.append_nil] at this
  cases tr with
  | nil => cases he.1
  | cons o tr =>
    simp only [List.head?_cons, Option.some.injEq, List.tail_cons, Option.map_eq_some_iff] at he
    obtain ⟨rfl, cu, hc, hev⟩ := he
    exact ⟨s, tr, _, _, cu, this, List.mem_singleton.2 rfl, hc, hev, rfl, rfl⟩

end Ports

/-! ### poll(2) -/

section Poll
open PollP PollB PollFlags PollEx C15

/-- The same for the poll backend, for any number of threads, if `poll(2)` reports only what it was asked for, error, hang-up and "invalid
descriptor".  (It watches no extra conditions.)  Missing: those are delivered whatever the interest, see `poll_disabled_repeats`. -/
theorem poll_within_partial {c s tr} (h : Reach c (OsIs OsHonest) s tr) :
    EveryDelivery (fun cur evs => ∀ fd e, (fd, e) ∈ evs → ∃ cu, cur fd = some cu ∧
      Within (cu.ev.readable = true) (cu.ev.writable = true) False (PollFault e.extra.flags) e.readable e.writable) (history true tr) := by
  refine everyDelivery_of h ?_
  intro s t os order n l tr' hr _ fd e hm
  obtain ⟨cu, hc, hne, rfl⟩ := (batch_spec hr).sound fd e hm
  have key : ∀ i, Reported (os fd (asks cu)) i →
      (cu.ev.readable = true ∧ (i = cIn ∨ i = cPri)) ∨ (cu.ev.writable = true ∧ (i = cOut ∨ i = cWrband)) ∨ PollFault (os fd (asks cu)) := by
    intro i h
    rcases (reach_os hr).2 t os order n _ List.mem_cons_self fd (asks cu) i h with h1 | rfl | rfl | rfl
    · unfold asks at h1
      have hi : i < 16 := BitVec.lt_of_getLsbD h1
      have hri : ∀ j, j < 16 → (IN ||| PRI).getLsbD j = true → j = cIn ∨ j = cPri := by decide
      have hwi : ∀ j, j < 16 → (OUT ||| WRBAND).getLsbD j = true → j = cOut ∨ j = cWrband := by decide
      split at h1
      · simp [Reported] at h1
      · unfold Reported at h1
        rw [BitVec.getLsbD_or, Bool.or_eq_true] at h1
        rcases h1 with h1 | h1
        · split at h1
          · next hr => exact .inl ⟨hr, hri i hi h1⟩
          · simp at h1
        · split at h1
          · next hr => exact .inr (.inl ⟨hr, hwi i hi h1⟩)
          · simp at h1
    · exact .inr (.inr (.inl (.inr h)))
    · exact .inr (.inr (.inl (.inl h)))
    · exact .inr (.inr (.inr h))
  refine ⟨cu, hc, fun he => ?_, fun he => ?_, ?_⟩
  · rw [C20.poll_readable_iff] at he
    rcases he with h | h | h | h
    · rcases key cIn h with h | ⟨_, h | h⟩ | h
      · exact .inl h.1
      · cases h
      · cases h
      · exact .inr (.inr h)
    · rcases key cPri h with h | ⟨_, h | h⟩ | h
      · exact .inl h.1
      · cases h
      · cases h
      · exact .inr (.inr h)
    · exact .inr (.inr (.inl (.inl h)))
    · exact .inr (.inr (.inl (.inr h)))
  · rw [C20.poll_writable_iff] at he
    rcases he with h | h | h | h
    · rcases key cOut h with ⟨_, h | h⟩ | h | h
      · cases h
      · cases h
      · exact .inl h.1
      · exact .inr h
    · rcases key cWrband h with ⟨_, h | h⟩ | h | h
      · cases h
      · cases h
      · exact .inl h.1
      · exact .inr h
    · exact .inr (.inl (.inl h))
    · exact .inr (.inl (.inr h))
  · obtain ⟨j, hj⟩ : ∃ j, Reported (os fd (asks cu)) j := by
      apply Classical.byContradiction
      intro hno
      apply hne
      ext i hi
      have : (os fd (asks cu)).getLsbD i ≠ true := fun h => hno ⟨i, h⟩
      simpa [BitVec.getLsbD_eq_getElem hi] using this
    rcases key j hj with h | h | h
    · exact .inl h.1
    · exact .inr (.inl h.1)
    · exact .inr (.inr (.inr h))

/-- The rest is false of the code: in level mode, with interest in nothing, every `wait` in `poll(2)` returns at once with an event of
the source as long as `poll(2)` has something to report unasked. -/
theorem poll_disabled_repeats (c : Cfg) (s : S) (tr : List PObs) (h : Reach c Any s tr) (t : Tid) (b : Bool) (hpc : s.pc t = .wPoll b)
    (fd : Fd) (key : Key) (hask : Live.Asked (tr.flatMap Live.ofPObs) fd key false false .level) (os : Fd → Flags → Flags)
    (hready : os fd 0#16 ≠ 0#16) (hos : decide (os c.n.readFd c.n.flags ≠ 0#16) = decide (s.chan > 0)) :
    ∃ k s1, runActs c s ((t, .waitPoll os) :: List.replicate k (t, .waitPopAll)) = some (s1, List.replicate (k + 1) .tau) ∧
      s1.pc t = .wSwap2 b os ∧ s1.tbl = s.tbl ∧
      ∀ order, order.isPerm (s.tbl.pollFds.tail.map PollFd.fd) = true →
        ∃ s2 n shown l, runActs c s1 [(t, .waitSwap2 order), (t, .waitUnlock), (t, .waitFinish)] =
            some (s2, [.waitOk t n shown, .tau, .round t os order s.notified (.events l)]) ∧
          key ∈ shown.map Event.key :=
  C58.poll_live c s tr h t b hpc fd key false false .level hask os hready hos

/-- A state that meets the hypotheses of `poll_disabled_repeats`, with an OS that keeps the contract: it happened already. -/
example : ∃ s tr b, ∃ os : Fd → Flags → Flags, Reach cfg Any s tr ∧ s.pc 0 = .wPoll b ∧
    Live.Asked (tr.flatMap Live.ofPObs) 7 18 false false .level ∧ os 7 0#16 ≠ 0#16 ∧
    decide (os cfg.n.readFd cfg.n.flags ≠ 0#16) = decide (s.chan > 0) ∧ OsHonest os := by
  have hr : (runActs cfg (PollP.init cfg)
      (callActs (.add 7 (Event.onlyReadable 17) .level) ++ callActs (.modify 7 (Event.none 18) .level) ++ waitActs (os7 HUP) [7] ++
        [(0, .waitBegin true), (0, .waitLock), (0, .waitSwap), (0, .waitLoad)])).map
      (fun x => (match x.1.pc 0 with | .wPoll b => b | _ => false, x.2.flatMap Live.ofPObs, x.1.chan)) = some (true, seen 0, 0) := by
    decide +kernel
  rw [Option.map_eq_some_iff] at hr
  obtain ⟨⟨s, tr⟩, hr, he⟩ := hr
  simp only [Prod.mk.injEq] at he
  have hreach := reach_run (P := Any) .init _ _ _ (fun _ _ => trivial) hr
  rw [List.append_nil] at hreach
  have hpc : s.pc 0 = .wPoll true := by
    have := he.1
    split at this
    · next h => rw [h, this]
    · cases this
  exact ⟨s, tr, true, os7 HUP, hreach, hpc, by rw [he.2.1]; exact seen_asked 0, by decide, by rw [he.2.2]; decide, os7_honest HUP⟩

end Poll

/-! ### kqueue -/

section Kq
open KqM Kqueue KqSpec

/-- After `modify` (or `add`) with an interest in nothing returned `Ok`, and no other thread changed the source's filters while it ran, no
event of the source is taken from the kernel until a registration call arms it again: not even for an error or end of file. -/
theorem kqueue_disabled (c : Cfg) (s : S) (l3 l2 l1 : List KObs) (t u : Tid) (fd : Fd) (ev : Event EventExtra) (mode : PollMode)
    (call : Call) (hcall : call = .modify fd ev mode ∨ call = .add fd ev mode) (evs : List KEvent)
    (h : Reach c Honest s (l3 ++ .deliver u evs :: (l2 ++ .ret t call (.res .ok) :: l1)))
    (hr : ev.readable = false) (hw : ev.writable = false)
    (hu : undisturbed l1 t (.read fd) = true ∧ undisturbed l1 t (.write fd) = true)
    (hl : ∀ o ∈ l2, arms (.read fd) o = false ∧ arms (.write fd) o = false) :
    ∀ e ∈ evs, e.filter ≠ .read fd ∧ e.filter ≠ .write fd := by
  have h1 : wants call (.read fd) = some none := by rcases hcall with rfl | rfl <;> simp [wants, hr]
  have h2 : wants call (.write fd) = some none := by rcases hcall with rfl | rfl <;> simp [wants, hw]
  have hR := C19.kqueue_nothing_after_delete c s l3 l2 l1 t u call evs _ h h1 hu.1 fun o ho => (hl o ho).1
  have hW := C19.kqueue_nothing_after_delete c s l3 l2 l1 t u call evs _ h h2 hu.2 fun o ho => (hl o ho).2
  intro e he
  exact ⟨fun hf => hR (hf ▸ List.mem_map_of_mem he), fun hf => hW (hf ▸ List.mem_map_of_mem he)⟩

/-- Ready, at end of file and queued; set to `Event::none`: not delivered; set to readable again: delivered. -/
example : (C04.trace C04.userCfg (fun f => if f = .read 7 then some true else none)
    (by_ 0 [.call (.add 7 (Event.onlyReadable 5) .level), .src, .src, .change none, .change none, .eval, .wait true 1, .kevent, .finish,
      .call (.modify 7 (Event.none 5) .level), .src, .change none, .change none, .eval, .wait true 1, .kevent, .finish,
      .call (.modify 7 (Event.onlyReadable 6) .level), .src, .change none, .change none, .eval, .wait true 1, .kevent, .finish])).map
      (fun tr => tr.filterMap fun o => match o with | .waitOk _ _ evs => some (evs.map fun e => (e.key, e.readable, e.writable)) | _ => none) =
    some [[(6, true, true)], [], [(5, true, true)]] := by decide +kernel

end Kq

/-! ### IOCP: sockets -/

section Iocp
open IocpM Iocp IocpSpec

/-- Every event of a socket in any history of the IOCP poller is within the interest in force, and errors and hang-ups are no
exception: with `Event::none` nothing is delivered. -/
theorem iocp_disabled (n : Nat) (P) (s : S) (tr : List IObs) (h : Reach n P s tr) :
    EveryDelivery (fun r sock _ _ => sock = true → ∃ q, r = some q ∧ q.ev ≠ Event.none q.ev.key) tr := by
  intro later sock fd p ev earlier he hk
  obtain ⟨q, h1, h2, h3, h4⟩ := C25.iocp_within_interest n P s tr h later sock fd p ev earlier he hk
  refine ⟨q, h1, fun hn => ?_⟩
  have hr : ev.readable = false := by
    rcases Bool.eq_false_or_eq_true ev.readable with h | h
    · have := h2 h; rw [hn] at this; cases this
    · exact h
  have hw : ev.writable = false := by
    rcases Bool.eq_false_or_eq_true ev.writable with h | h
    · have := h3 h; rw [hn] at this; cases this
    · exact h
  obtain ⟨i, _, _, hi⟩ := h4 hr hw
  rw [hn] at hi
  simp [Event.none, Event.new, Extra.empty] at hi

/-- The socket is readable and the completion queued when the source is set to `Event::none`: nothing is delivered; readable
after an earlier `modify`, and the connection is reset: delivered. -/
example : (exTrace (addActs 0 true 7 (Event.onlyReadable 5) .level ++ blockActs 1 4 ++ [.complete 1 (.ok 1 RECEIVE)] ++
      modActs 0 true 7 (Event.none 5) .level ++ takeActs)).map (List.filterMap fun o => match o with | .deliver _ fd _ e => some (fd, e.key) | _ => none) =
    some [] ∧
  (exTrace (addActs 0 true 7 (Event.onlyReadable 5) .level ++ modActs 0 true 7 (Event.onlyReadable 6) .level ++ blockActs 2 4 ++ [.complete 1 (.ok 1 ABORT)] ++
      takeActs)).map (List.filterMap fun o => match o with | .deliver _ fd _ e => some (fd, e.key) | _ => none) =
    some [(7, 6)] := by decide +kernel

end Iocp

end Polling.C62
