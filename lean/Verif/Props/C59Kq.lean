import Verif.Proof.KqTimeout
import Verif.Props.KqNotify

/-! C59: a timeout ends the wait: the runs of the kqueue poller, with everything other threads do meanwhile. -/

namespace Polling.C59
open Spec KqM

/-- A kqueue poller, at any moment of any execution in which the poller's own calls for notifications do not fail; everything else may
happen meanwhile, interruptions by signals included.  The latest `wait` was given the timeout `T`, it is in `kevent`, and `T` has passed
since it began: then `kevent` can return at once, with events or without, and `wait` comes to its end by its own steps. -/
theorem kqueue_timeout_ends (c : Cfg) (hok : c.Ok) (s : KqC.S) (l : List (KqC.Act × KqC.Obs)) (h : KqC.Reach c s l) (t : Tid) (timed : Bool) (cap : Nat)
    (hp : s.k.pc t = .wKev timed cap) (hf : s.fresh = true) (T : Nat) (hT : timeoutOf (l.filterMap KqC.handT) = some T)
    (hrep : s.now - spent (l.filterMap KqC.handT) + T ≤ unixMaxNs) (hover : T ≤ spent (l.filterMap KqC.handT)) :
    ∃ acts s' l' n evs, runLog (KqC.step c) s (.act t .kevent :: acts) l = some (s', l') ∧ (∀ a ∈ acts, ∃ x, a = .act t x) ∧
      l'.head?.map (fun x => x.2.1) = some (some (.waitOk t n evs)) ∧ s'.now = s.now ∧ s'.k.pc t = .out := by
  obtain ⟨tr, hr⟩ := KqC.reach_inner h
  obtain ⟨h1, h2, h3, h4⟩ := KqC.reach_dl h
  obtain ⟨h3, h5⟩ := h3 hf
  have hdl := h2 T hT hrep
  have htm : timed = true := by
    have := h4 t timed (by rw [hp]; rfl)
    rw [hT] at this; exact this.symm
  have hover : KqC.overdue s = true := by
    unfold KqC.overdue
    rw [h5, hdl]
    simp only [Option.map_some, decide_eq_true_eq]
    rw [EpollM.since_ns hrep]
    omega
  have htn : ¬ t ≥ c.threads := by
    intro hge; rw [reach_range hr t hge] at hp; cases hp
  obtain ⟨evs, k, hh⟩ : ∃ evs k, harvest c s.k.k cap = (evs, k) := ⟨_, _, rfl⟩
  have hk : step c s.k t .kevent = some ({ s.k with k, pc := upd s.k.pc t (if c.user then .wFin evs else .wClear timed cap evs) },
      .deliver t (evs.filter fun e => !c.internal e.filter)) := by
    unfold step; rw [if_neg htn]; simp only [hp, hh]
    rw [if_pos (.inr htm)]
  have hr1 : Reach c Works _ _ := .step hr (by unfold Works; rw [hp]; trivial) hk
  have hs : KqC.step c s (.act t .kevent) = some ({ s with k := { s.k with k, pc := upd s.k.pc t (if c.user then .wFin evs else .wClear timed cap evs) } },
      (some (.deliver t (evs.filter fun e => !c.internal e.filter)), KqC.gaveUp c s.k t)) := by
    simp only [KqC.step, hf, hover, Bool.not_true, Bool.and_false, Bool.or_self, Bool.false_eq_true, if_false, KqC.inner, hk, Option.map_some, id]
  obtain ⟨e1, e2⟩ := C04.kqueue_wait_ends c hok _ _ hr1 t
  have fin : ∀ acts k' obs, runActs c { s.k with k, pc := upd s.k.pc t (if c.user then .wFin evs else .wClear timed cap evs) } (by_ t acts) =
      some (k', .waitOk t (visible evs).length (visible evs) :: obs) → k'.pc t = .out →
      (∀ a ∈ acts, (∀ b cap, a ≠ .wait b cap) ∧ a ≠ .kevent) →
      ∃ acts s' l' n evs, runLog (KqC.step c) s (.act t .kevent :: acts) l = some (s', l') ∧ (∀ a ∈ acts, ∃ x, a = .act t x) ∧
        l'.head?.map (fun x => x.2.1) = some (some (.waitOk t n evs)) ∧ s'.now = s.now ∧ s'.k.pc t = .out := by
    intro acts k' obs hrun hout hacts
    obtain ⟨s', l', f1, f2, f3, f4⟩ := KqC.lift_run (c := c) (by_ t acts)
      (s := { s with k := { s.k with k, pc := upd s.k.pc t (if c.user then .wFin evs else .wClear timed cap evs) } })
      (l := (.act t .kevent, (some (.deliver t (evs.filter fun e => !c.internal e.filter)), KqC.gaveUp c s.k t)) :: l)
      (by intro x hx; unfold by_ at hx; rw [List.mem_map] at hx; obtain ⟨a, ha, rfl⟩ := hx; exact hacts a ha) hrun
    refine ⟨(by_ t acts).map fun x => .act x.1 x.2, s', l', (visible evs).length, visible evs, ?_, ?_, ?_, f3, by rw [f2]; exact hout⟩
    · simp only [runLog, hs, Option.bind_some]; exact f1
    · intro a ha
      simp only [by_, List.map_map, List.mem_map] at ha
      obtain ⟨x, _, rfl⟩ := ha
      exact ⟨x, rfl⟩
    · have := congrArg List.head? f4
      rw [List.head?_map] at this
      rw [this]; rfl
  cases hu : c.user with
  | true =>
    obtain ⟨k', g1, g2, _⟩ := e1 evs (by simp only [hu, upd_self, if_true])
    refine fin [.finish] k' [] ?_ g2 ?_
    · simp only [by_, List.map_cons, List.map_nil]; exact run_cons g1 (rfl : runActs c _ [] = some (_, []))
    · intro a ha; simp only [List.mem_singleton] at ha; subst ha; exact ⟨(by intro b cap e; cases e), (by intro e; cases e)⟩
  | false =>
    obtain ⟨m, k', obs, g1, g2, _⟩ := e2 timed cap evs (by simp only [hu, upd_self, Bool.false_eq_true, if_false])
    refine fin _ k' obs g1 g2 ?_
    intro a ha
    simp only [List.mem_append, List.mem_replicate, List.mem_cons, List.mem_nil_iff, or_false] at ha
    rcases ha with ⟨_, rfl⟩ | rfl | rfl | rfl | rfl | rfl <;> exact ⟨(by intro b cap e; cases e), (by intro e; cases e)⟩

/-- 4.5 milliseconds; a signal after two; another thread is about to notify.  4.5 milliseconds after its
beginning `wait` is in `kevent`, as in the theorem (which one nanosecond earlier does not apply), and the timeout that `kevent` was given
is 2.5 milliseconds. -/
example : ∃ s l, KqC.Reach C04.userCfg s l ∧ s.k.pc 0 = .wKev true 8 ∧ s.fresh = true ∧ timeoutOf (l.filterMap KqC.handT) = some 4500000 ∧
    s.now - spent (l.filterMap KqC.handT) + 4500000 ≤ unixMaxNs ∧ spent (l.filterMap KqC.handT) = 4500000 ∧ s.rem.map Duration.ns = some 2500000 := by
  let acts : List KqC.Act := [.tick 9, .wait 0 (some ⟨4500000, by decide⟩) 8, .remaining, .tick 2000000, .act 0 (.kfail .interrupted), .remaining,
    .act 1 .notifyCas, .tick 2500000]
  have h : (runLog (KqC.soundStep C04.userCfg) (KqC.init C04.userCfg (fun _ => none) 7000) acts []).isSome = true := by decide +kernel
  obtain ⟨⟨s, l⟩, hr⟩ := Option.isSome_iff_exists.1 h
  have hall : ((runLog (KqC.soundStep C04.userCfg) (KqC.init C04.userCfg (fun _ => none) 7000) acts []).all fun r =>
      decide (r.1.k.pc 0 = .wKev true 8) && r.1.fresh && decide (timeoutOf (r.2.filterMap KqC.handT) = some 4500000) &&
      decide (r.1.now - spent (r.2.filterMap KqC.handT) + 4500000 ≤ unixMaxNs) && decide (spent (r.2.filterMap KqC.handT) = 4500000) &&
      decide (r.1.rem.map Duration.ns = some 2500000)) = true := by decide +kernel
  rw [hr] at hall
  simp only [Option.all_some, Bool.and_eq_true, decide_eq_true_eq] at hall
  obtain ⟨⟨⟨⟨⟨a1, a2⟩, a3⟩, a4⟩, a5⟩, a6⟩ := hall
  exact ⟨s, l, KqC.reach_log (.init _ _) hr, a1, a2, a3, a4, a5, a6⟩

end Polling.C59
