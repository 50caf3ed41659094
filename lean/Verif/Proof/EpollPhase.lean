import Verif.Proof.EpollStep

/-! The notification protocol of the epoll machine. -/

namespace Polling.EpollM
open Epoll Spec

theorem ReachP.reach {c P s tr} (h : ReachP c P s tr) : Reach c s tr := by
  induction h with
  | init user => exact .init user
  | step _ _ hs ih => exact .step ih hs

/-- The buffer is not empty. -/
def Phase.capOk : Phase → Prop
  | .idle => True
  | .top _ n | .sized _ n _ | .timed _ n _ | .polling _ n _ _ | .clearing _ n _ | .cleared _ n _ | .rearmed _ n _ => n > 0

/-- The notifier may be disarmed. -/
def Phase.disarmed : Phase → Prop
  | .clearing .. | .cleared .. => True
  | _ => False

/-- `epoll_wait` has returned. -/
def Phase.late : Phase → Prop
  | .clearing .. | .cleared .. | .rearmed .. => True
  | _ => False

structure N (c : Cfg) (s : S) (tr : List (Obs EventExtra)) : Prop where
  capOk : s.phase.capOk
  armed : ¬ s.phase.disarmed → s.k.items c.notifFd = some ⟨ARMED, NK⟩
  chan : s.notified = true ∨ owed tr = true → s.k.count > 0 ∨ s.inflight > 0 ∨ s.phase.late

theorem add_internal {c : Cfg} {k k' : Kern} {fault fd ev mode res} {x : Fd} (hx : x ≠ fd)
    (heq : EpollM.add c fault k fd ev mode = (res, k')) : k'.items x = k.items x ∧ k'.count = k.count := by
  rcases ctlAdd_cases heq with ⟨h1, h2, rfl⟩ | ⟨_, rfl⟩
  · constructor
    · rw [link_items, setItem_items]; simp [hx]
    · rw [link_eq]; rfl
  · exact ⟨rfl, rfl⟩

theorem modify_internal {c : Cfg} {k k' : Kern} {fault fd ev mode res} {x : Fd} (hx : x ≠ fd)
    (heq : EpollM.modify c fault k fd ev mode = (res, k')) : k'.items x = k.items x ∧ k'.count = k.count := by
  rcases ctlMod_cases heq with ⟨h1, h2, rfl⟩ | ⟨_, rfl⟩
  · constructor
    · rw [link_items, setItem_items]; simp [hx]
    · rw [link_eq]; rfl
  · exact ⟨rfl, rfl⟩

theorem delete_internal {k k' : Kern} {fault fd res} {x : Fd} (hx : x ≠ fd)
    (heq : EpollM.delete fault k fd = (res, k')) : k'.items x = k.items x ∧ k'.count = k.count := by
  rcases ctlDel_cases heq with ⟨h1, h2, rfl⟩ | ⟨_, rfl⟩
  · constructor
    · simp [setItem, hx]
    · rfl
  · exact ⟨rfl, rfl⟩

theorem ne_notif {c : Cfg} {fd : Fd} (h : c.internal fd = false) : c.notifFd ≠ fd := by
  rintro rfl; rw [internal_notif] at h; cases h

theorem ne_timer {c : Cfg} {fd : Fd} (h : c.internal fd = false) (ht : c.hasTimer = true) : c.timerFd ≠ fd := by
  rintro rfl; rw [internal_timer c ht] at h; cases h

/-- A change of the kernel tables that does not touch the notifier. -/
theorem N.kern {c s tr} (h : N c s tr) {k' : Kern} {o : Obs EventExtra} (h1 : k'.items c.notifFd = s.k.items c.notifFd)
    (h2 : k'.count = s.k.count) (ho : owed (o :: tr) = owed tr) : N c { s with k := k' } (o :: tr) :=
  ⟨h.capOk, fun hp => by rw [h1]; exact h.armed hp, fun hn => by rw [h2]; exact h.chan (ho ▸ hn)⟩

theorem waitFail_N {c s tr} (h : N c s tr) {dl cap e s' o} {k : Kern} (h1 : k.items c.notifFd = s.k.items c.notifFd)
    (h2 : k.count = s.k.count) (hcap : cap > 0) (hd : ¬ s.phase.late) (heq : waitFail { s with k } dl cap e = (s', o)) :
    N c s' (o :: tr) := by
  have hdis : ¬ s.phase.disarmed := by
    intro hh; apply hd; revert hh; cases s.phase <;> simp [Phase.disarmed, Phase.late]
  have hch : s.notified = true ∨ owed tr = true → s.k.count > 0 ∨ s.inflight > 0 := by
    intro hn; rcases h.chan hn with hc | hc | hc
    · exact .inl hc
    · exact .inr hc
    · exact absurd hc hd
  unfold waitFail at heq
  split at heq
  · cases heq
    exact ⟨hcap, fun _ => by simp only; rw [h1]; exact h.armed hdis, fun hn => by
      simp only [Phase.late]; rw [h2]; rcases hch hn with a | a <;> simp [a]⟩
  · cases heq
    exact ⟨trivial, fun _ => by simp only; rw [h1]; exact h.armed hdis, fun hn => by
      simp only [Phase.late]; rw [h2]; rcases hch hn with a | a <;> simp [a]⟩

theorem step_N {c : Cfg} (hok : c.Ok) {s : S} {tr : List (Obs EventExtra)} {a : Act} {s' : S} {o : Obs EventExtra}
    (h : N c s tr) (hP : RearmWorks a) (hnot : (s.k.items c.notifFd).isSome = true)
    (hs : step c s a = some (s', o)) : N c s' (o :: tr) := by
  cases a with
  | add fd ev mode fault =>
    simp only [step] at hs
    split at hs
    · cases hs
    · next hint =>
      split at hs
      · cases hs
      · split at hs
        · cases hs; exact ⟨h.capOk, h.armed, h.chan⟩
        · rcases hm : EpollM.add c fault s.k fd ev mode with ⟨r, k⟩
          have hh := add_internal (ne_notif (by simpa using hint)) hm
          rw [hm] at hs
          cases r <;> (cases hs; exact h.kern hh.1 hh.2 rfl)
  | modify fd ev mode fault =>
    simp only [step] at hs
    split at hs
    · cases hs
    · next hint =>
      split at hs
      · cases hs
      · split at hs
        · cases hs; exact ⟨h.capOk, h.armed, h.chan⟩
        · rcases hm : EpollM.modify c fault s.k fd ev mode with ⟨r, k⟩
          have hh := modify_internal (ne_notif (by simpa using hint)) hm
          rw [hm] at hs
          cases r <;> (cases hs; exact h.kern hh.1 hh.2 rfl)
  | delete fd fault =>
    simp only [step] at hs
    split at hs
    · cases hs
    · next hint =>
      rcases hm : EpollM.delete fault s.k fd with ⟨r, k⟩
      have hh := delete_internal (ne_notif (c := c) (by simpa using hint)) hm
      rw [hm] at hs
      cases r <;> (cases hs; exact h.kern hh.1 hh.2 rfl)
  | notifyCas =>
    simp only [step] at hs
    split at hs
    · next hn => cases hs; exact ⟨h.capOk, h.armed, fun _ => h.chan (.inl hn)⟩
    · split at hs
      · cases hs
        exact ⟨h.capOk, h.armed, fun _ => .inr (.inl (by simp))⟩
      · cases hs
  | notifyWrite =>
    simp only [step] at hs
    split at hs
    · next hi =>
      cases hs
      refine ⟨h.capOk, ?_, ?_⟩
      · intro hp; simp only [link_items]; exact h.armed hp
      · intro _; left; rw [link_eq]; simp
    · cases hs
  | waitBegin timeout cap =>
    simp only [step] at hs
    split at hs
    · next hph =>
      split at hs
      · cases hs
      · next hc =>
        cases hs
        refine ⟨by simp only [Phase.capOk]; omega, fun _ => h.armed (by rw [hph]; exact id), fun hn => ?_⟩
        have := h.chan hn
        rw [hph] at this
        simpa [Phase.late] using this
    · cases hs
  | waitBusy =>
    simp only [step] at hs
    split at hs
    · cases hs
    · cases hs; exact ⟨h.capOk, h.armed, h.chan⟩
  | compute =>
    simp only [step] at hs
    split at hs
    · next dl cap hph =>
      cases hs
      have hc := h.capOk
      rw [hph] at hc
      refine ⟨hc, fun _ => h.armed (by rw [hph]; exact id), fun hn => ?_⟩
      have := h.chan hn
      rw [hph] at this
      simpa [Phase.late] using this
    · cases hs
  | settime fault =>
    simp only [step] at hs
    split at hs
    · next dl cap timeout hph =>
      have hc := h.capOk
      rw [hph] at hc
      split at hs
      · split at hs
        · exact waitFail_N h (k := s.k) rfl rfl hc (by rw [hph]; exact id) (Option.some.inj hs)
        · cases hs
          refine ⟨hc, fun _ => h.armed (by rw [hph]; exact id), fun hn => ?_⟩
          have := h.chan hn
          rw [hph] at this
          simpa [Phase.late, EpollM.settime] using this
      · cases hs
        refine ⟨hc, fun _ => h.armed (by rw [hph]; exact id), fun hn => ?_⟩
        have := h.chan hn
        rw [hph] at this
        simpa [Phase.late] using this
    · cases hs
  | armTimer fault =>
    simp only [step] at hs
    split at hs
    · next dl cap timeout hph =>
      have hc := h.capOk
      rw [hph] at hc
      have hch : s.notified = true ∨ owed tr = true → s.k.count > 0 ∨ s.inflight > 0 := by
        intro hn
        have := h.chan hn
        rw [hph] at this
        simpa [Phase.late] using this
      split at hs
      · next ht =>
        rcases hm : EpollM.modify c fault s.k c.timerFd (Event.onlyReadable NOTIFY_KEY) .oneshot with ⟨r, k⟩
        have hh := modify_internal (fun h => hok ht h.symm : c.notifFd ≠ c.timerFd) hm
        rw [hm] at hs
        cases r with
        | ok =>
          cases hs
          refine ⟨hc, fun _ => by simp only; rw [hh.1]; exact h.armed (by rw [hph]; exact id), fun hn => ?_⟩
          simp only [hh.2]
          rcases hch hn with a | a <;> simp [a]
        | err e => exact waitFail_N h hh.1 hh.2 hc (by rw [hph]; exact id) (Option.some.inj hs)
      · cases hs
        refine ⟨hc, fun _ => h.armed (by rw [hph]; exact id), fun hn => ?_⟩
        simp only
        rcases hch hn with a | a <;> simp [a]
    · cases hs
  | epollReturn =>
    simp only [step] at hs
    split at hs
    · next dl cap timeout t0 hph =>
      have hc := h.capOk
      rw [hph] at hc
      split at hs
      · cases hs
        exact ⟨hc, fun hp => absurd trivial hp, fun _ => .inr (.inr trivial)⟩
      · cases hs
    · cases hs
  | epollFail e =>
    simp only [step] at hs
    split at hs
    · next dl cap timeout t0 hph =>
      have hc := h.capOk
      rw [hph] at hc
      exact waitFail_N h (k := s.k) rfl rfl hc (by rw [hph]; exact id) (Option.some.inj hs)
    · cases hs
  | clearRead =>
    simp only [step] at hs
    split at hs
    · next dl cap evs hph =>
      have hc := h.capOk
      rw [hph] at hc
      split at hs
      · injection hs with hs; injection hs with h1 h2; subst h1 h2
        exact ⟨by simp only [hph]; exact hc, fun hp => h.armed hp, fun _ => .inr (.inr (by simp only [hph]; trivial))⟩
      · injection hs with hs; injection hs with h1 h2; subst h1 h2
        exact ⟨hc, fun hp => absurd trivial hp, fun _ => .inr (.inr trivial)⟩
    · cases hs
  | rearm fault =>
    simp only [step] at hs
    split at hs
    · next dl cap evs hph =>
      have hc := h.capOk
      rw [hph] at hc
      cases fault with
      | some e => exact absurd hP id
      | none =>
        rcases hm : EpollM.modify c none s.k c.notifFd (Event.onlyReadable NOTIFY_KEY) .oneshot with ⟨r, k⟩
        have hr := modify_ok_of_some (c := c) (ev := Event.onlyReadable NOTIFY_KEY) (mode := .oneshot) hnot
        rw [hm] at hr hs
        cases r with
        | err e => cases hr
        | ok =>
          cases hs
          refine ⟨hc, fun _ => ?_, fun _ => .inr (.inr trivial)⟩
          rcases ctlMod_cases hm with ⟨_, _, rfl⟩ | ⟨⟨e, he⟩, _⟩
          · simp only [link_items, setItem_items, if_true]; rfl
          · cases he
    · cases hs
  | finish =>
    simp only [step] at hs
    split at hs
    · next dl cap evs hph =>
      cases hs
      exact ⟨trivial, fun _ => h.armed (by rw [hph]; exact id), fun hn => by simp [owed] at hn⟩
    · cases hs
  | setReady fd flags key =>
    simp only [step] at hs
    split at hs
    · cases hs
    · split at hs
      · cases hs
      · cases hs
        refine h.kern ?_ ?_ rfl
        · rw [link_items]
        · rw [link_eq]
  | tick dt =>
    simp only [step] at hs
    split at hs
    · cases hs; exact h.kern rfl rfl rfl
    · split at hs
      · cases hs
        refine h.kern ?_ ?_ rfl
        · split
          · rw [link_items]
          · rfl
        · split
          · rw [link_eq]
          · rfl
      · cases hs; exact h.kern rfl rfl rfl

theorem init_N (c : Cfg) (hok : c.Ok) (user : Fd → Flags) : N c (init c user) [] := by
  refine ⟨trivial, fun _ => ?_, fun h => ?_⟩
  · unfold init
    cases ht : c.hasTimer with
    | false =>
      simp only [EpollM.add, ctlAdd, Bool.false_eq_true, if_false, link_items, setItem_items, if_true]
      rfl
    | true =>
      have hne : c.notifFd ≠ c.timerFd := fun h => hok ht h.symm
      simp only [EpollM.add, ctlAdd, if_true, link_items, setItem_items, hne, if_false]
      rfl
  · simp [init, owed] at h

theorem notif_some {c items cur} (h : R c items cur) : (items c.notifFd).isSome = true := by
  rcases h.notif with h | h <;> simp [h]

theorem reach_N {c : Cfg} (hok : c.Ok) {s tr} (h : ReachP c RearmWorks s tr) : N c s tr := by
  induction h with
  | init user => exact init_N c hok user
  | step hr hP hs ih => exact step_N hok ih hP (notif_some (reach_kinv hok hr.reach).r) hs

/-- The notifier is ready: `epoll_wait` can return at once. -/
theorem notif_ready {c : Cfg} {k : Kern} (hl : L c k) (ha : k.items c.notifFd = some ⟨ARMED, NK⟩) (hc : k.count > 0)
    {n : Nat} (hn : n > 0) : (harvest c k n).1 ≠ [] := by
  have hhot : hot (ready c k) k.items c.notifFd = true := by
    simp only [hot, rev, ha, ready, if_true, hc]; decide
  have hin : c.notifFd ∈ k.rdl := by
    refine hl.linked _ _ ha (by decide) ?_
    simp only [ready, if_true, hc]; decide
  obtain ⟨pre, rest, h1, h2, h3, h4, h5⟩ := harvest_spec hl n
  rw [h2]
  intro he
  rw [List.map_eq_nil_iff] at he
  rw [he] at h4
  rcases h4 with h4 | h4
  · subst h4
    rw [h1, List.append_nil] at hin
    have : c.notifFd ∈ pre.filter (hot (ready c k) k.items) := List.mem_filter.2 ⟨hin, hhot⟩
    rw [he] at this; cases this
  · simp at h4; omega

end Polling.EpollM
