import Verif.Proof.LiveKq
import Verif.Props.C58

/-! C58: a program that asked for an event gets it: kqueue. -/

namespace Polling.C58
open KqM Kqueue KqSpec Live

/-- In every reachable state of the kqueue poller, for any number of threads: the program's latest call for a descriptor was a
successful `add` or `modify` in level or one-shot mode that overlapped with no other call for it, in one-shot mode the program has
not been told since, and the descriptor is readable (or writable) as it asked.  Then a `wait` in the kernel does not sleep: `kevent`
returns at once with an event that carries the key the program gave, unless the buffer is full, and `wait` shows it.
Missing for the full property: a kernel that keeps the mode of a filter that is added again (`C21.kqueue_mode_kept`); a kernel
that refuses to watch a filter with EPIPE, which the code takes for success; and the failure of the notifier's own calls. -/
theorem kqueue_live_partial (c : Cfg) (hok : c.Ok) (s : S) (tr : List KObs) (h : Reach c Calm s tr) (t : Tid) (timed : Bool) (cap : Nat)
    (hpc : s.pc t = .wKev timed cap) (fd : Fd) (key : Key) (r w : Bool) (mode : PollMode)
    (hask : Asked (tr.flatMap ofKObs) fd key r w mode) (f : Filter) (hf : f = .read fd ∧ r = true ∨ f = .write fd ∧ w = true)
    (hready : (s.k.cond f).isSome = true) (hkeep : c.keepMode f = false) (hauto : c.autoClear f = false)
    (hpipe : ∀ t f, .refused t f EPIPE ∉ tr) :
    ∃ s1 evs all acts s2 n shown obs, step c s t .kevent = some (s1, .deliver t evs) ∧ harvest c s.k cap = (all, s1.k) ∧
      (∀ a ∈ acts, a.1 = t) ∧ runActs c s1 acts = some (s2, .waitOk t n shown :: obs) ∧
      (key ∈ shown.map Event.key ∨ all.length = cap) := by
  obtain ⟨hi, hkey, wt, hw, hg, hcl, hk⟩ := asked_watch hok h hpipe (not_open h hpc) hask hf hkeep
  have huf : isUser f = false := by rcases hf with ⟨rfl, _⟩ | ⟨rfl, _⟩ <;> rfl
  obtain ⟨s1, evs, hs⟩ := C16.kqueue_level_not_asleep c Calm s tr h t timed cap hpc f hi huf wt hw hg hcl hauto hready
  have hfull := deliver_complete h hs hi huf hw hg hcl hauto hready
  have hinv : ∃ all, harvest c s.k cap = (all, s1.k) ∧ evs = all.filter (fun e => !c.internal e.filter) ∧
      (s1.pc t = .wFin all ∨ s1.pc t = .wClear timed cap all) := by
    have hn := (step_next hs).2
    generalize ho : KObs.deliver t evs = o at hn
    cases hn with
    | @kevent timed' cap' all k hpc' hh hc =>
      rw [hpc] at hpc'
      cases hpc'
      cases ho
      refine ⟨all, hh, rfl, ?_⟩
      dsimp only
      rw [upd_self]
      cases c.user
      · exact .inr rfl
      · exact .inl rfl
    | _ => cases ho
  obtain ⟨all, hh, hevs, hpc1⟩ := hinv
  have hr1 : Reach c Calm s1 (.deliver t evs :: tr) := h.step ⟨by unfold Honest; rw [hpc]; trivial, by unfold Works; rw [hpc]; trivial⟩ hs
  have hend : ∃ acts s2 obs, (∀ a ∈ acts, a.1 = t) ∧ runActs c s1 acts = some (s2, .waitOk t (visible all).length (visible all) :: obs) := by
    have hw := C04.kqueue_wait_ends c hok s1 _ (hr1.mono fun _ _ _ h => h.2) t
    rcases hpc1 with hpc1 | hpc1
    · obtain ⟨s2, h1, _⟩ := hw.1 all hpc1
      exact ⟨[(t, .finish)], s2, [], by simp, by simp [runActs, h1]⟩
    · obtain ⟨m, s2, obs, h1, _⟩ := hw.2 timed cap all hpc1
      refine ⟨_, s2, obs, ?_, h1⟩
      intro a ha
      unfold by_ at ha
      obtain ⟨x, _, rfl⟩ := List.mem_map.1 ha
      rfl
  obtain ⟨acts, s2, obs, h1, h2⟩ := hend
  refine ⟨s1, evs, all, acts, s2, _, _, obs, hs, hh, h1, h2, ?_⟩
  rcases hfull with ⟨e, he, hef⟩ | ⟨timed', cap', all', hp', hh', hl⟩
  · refine .inl ?_
    obtain ⟨w', hw', _, hu, _⟩ := delivered h hs he
    rw [hef, hw] at hw'
    cases hw'
    have hke : (toEvent e).key = key := (C21.kqueue_event_iff e).2.2 key (hu.trans hk)
    rw [hevs] at he
    refine List.mem_map.2 ⟨toEvent e, ?_, hke⟩
    unfold visible
    refine List.mem_filter.2 ⟨List.mem_map_of_mem (List.mem_filter.1 he).1, ?_⟩
    rw [hke]; simpa using hkey
  · rw [hpc] at hp'; cases hp'
    rw [hh] at hh'; cases hh'
    exact .inr hl

/-- A call of thread 1 that does not fail. -/
def callActs (call : KqSpec.Call) : List (Tid × Act) :=
  by_ 1 (.call call :: (match call with | .add .. => [.src] | _ => []) ++ [.src, .change none, .change none, .eval])

/-- A `wait` of thread 0 that gets events, on a poller with a pair of sockets. -/
def waitActs : List (Tid × Act) := by_ 0 [.wait false 4, .kevent, .read false, .src, .change none, .change none, .eval, .finish]

theorem calm_of (s : S) (t : Tid) (a : Act) (h : noFault a = true) : Calm s t a := by
  exact ⟨honest_of s t a h, works_of h⟩

/-- The OS refused no change with EPIPE. -/
def noPipe : KObs → Bool
  | .refused _ _ e => e != EPIPE
  | _ => true

theorem noPipe_all {tr : List KObs} (h : tr.all noPipe = true) (t : Tid) (f : Filter) : .refused t f EPIPE ∉ tr := by
  intro hm
  have := List.all_eq_true.1 h _ hm
  simp [noPipe] at this

/-- The run of `seen`, on kqueue. -/
example : ∃ s tr timed cap, Reach C04.pairCfg Calm s tr ∧ s.pc 0 = .wKev timed cap ∧ Asked (tr.flatMap ofKObs) 7 18 true false .oneshot ∧
    (s.k.cond (.read 7)).isSome = true ∧ C04.pairCfg.keepMode (.read 7) = false ∧ C04.pairCfg.autoClear (.read 7) = false ∧
    ∀ t f, .refused t f EPIPE ∉ tr := by
  have hr : (runActs C04.pairCfg (init C04.pairCfg fun _ => none)
      (callActs (.add 7 (Event.onlyReadable 17) .oneshot) ++ [(2, .cond (.read 7) (some false))] ++ waitActs ++
        [(2, .cond (.read 7) none)] ++ callActs (.modify 7 (Event.onlyReadable 18) .oneshot) ++ callActs (.add 8 (Event.onlyReadable 27) .oneshot) ++
        [(2, .cond (.read 8) (some false))] ++ waitActs ++ [(2, .cond (.read 7) (some false)), (0, .wait false 4)])).map
      (fun x => (x.1.pc 0, x.2.flatMap ofKObs, (x.1.k.cond (.read 7)).isSome, x.2.all noPipe)) = some (.wKev false 4, seen 1, true, true) := by
    decide +kernel
  rw [Option.map_eq_some_iff] at hr
  obtain ⟨⟨s, tr⟩, hr, he⟩ := hr
  simp only [Prod.mk.injEq] at he
  have hreach := reach_runP calm_of (.init _) _ (by decide) s _ hr
  rw [List.append_nil] at hreach
  exact ⟨s, tr, _, _, hreach, he.1, by rw [he.2.1]; exact seen_asked 1, he.2.2.1, rfl, rfl, noPipe_all he.2.2.2⟩

/-- The exception: on a kernel that keeps the mode of a filter that is added again, the program switches a source from edge-triggered to
level mode, the call returns `Ok`, and still a `wait` sleeps although the source is ready. -/
theorem kqueue_live_mode_kept : ∃ s tr timed cap, Reach C04.userCfg Calm s tr ∧ s.pc 0 = .wKev timed cap ∧
    Asked (tr.flatMap ofKObs) 7 18 true false .level ∧ (s.k.cond (.read 7)).isSome = true ∧
    (∀ t f, .refused t f EPIPE ∉ tr) ∧ step C04.userCfg s 0 .kevent = none := by
  have hr : (runActs C04.userCfg (init C04.userCfg fun _ => none)
      (callActs (.add 7 (Event.onlyReadable 17) .edge) ++ callActs (.modify 7 (Event.onlyReadable 18) .level) ++
        [(2, .cond (.read 7) (some false))] ++ by_ 0 [.wait false 4, .kevent, .finish, .wait false 4])).map
      (fun x => (x.1.pc 0, x.2.flatMap ofKObs, (x.1.k.cond (.read 7)).isSome, x.2.all noPipe, (step C04.userCfg x.1 0 .kevent).isNone)) =
      some (.wKev false 4, [.waitOk [18], .ret 1 true, .begin 1 (.set 7 18 true false .level), .ret 1 true, .begin 1 (.set 7 17 true false .edge)],
        true, true, true) := by
    decide +kernel
  rw [Option.map_eq_some_iff] at hr
  obtain ⟨⟨s, tr⟩, hr, he⟩ := hr
  simp only [Prod.mk.injEq] at he
  have hreach := reach_runP calm_of (.init _) _ (by decide) s _ hr
  rw [List.append_nil] at hreach
  refine ⟨s, tr, _, _, hreach, he.1, ?_, he.2.2.1, noPipe_all he.2.2.2.1, by simpa using he.2.2.2.2⟩
  rw [he.2.1]
  refine ⟨[.waitOk [18], .ret 1 true], 1, [.ret 1 true, .begin 1 (.set 7 17 true false .edge)], rfl, rfl, ?_, ?_, .inl rfl⟩
  · intro u call h; simp at h
  · intro u call h
    simp only [Live.calling] at h
    split at h <;> cases h

end Polling.C58
