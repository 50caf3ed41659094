import Verif.Proof.EpollShow

/-! Runs of the epoll machine, for concrete cases. -/

namespace Polling.EpollM
open Epoll Spec

theorem run_append {c : Cfg} {s : S} {as bs : List Act} {s1 s2 : S} {o1 o2 : List (Obs EventExtra)}
    (h1 : runActs c s as = some (s1, o1)) (h2 : runActs c s1 bs = some (s2, o2)) :
    runActs c s (as ++ bs) = some (s2, o2 ++ o1) := by
  induction as generalizing s o1 with
  | nil => simp only [runActs, Option.some.injEq, Prod.mk.injEq] at h1; obtain ⟨rfl, rfl⟩ := h1; simpa using h2
  | cons a as ih =>
    simp only [runActs, Option.bind_eq_some_iff, Option.map_eq_some_iff, List.cons_append] at h1 ⊢
    obtain ⟨r, hr, ⟨s', o'⟩, hq, he⟩ := h1
    simp only [Prod.mk.injEq] at he
    obtain ⟨rfl, rfl⟩ := he
    exact ⟨r, hr, (s2, o2 ++ o'), ih hq, by simp⟩

theorem run_one {c : Cfg} {s : S} {a : Act} {s1 : S} {o : Obs EventExtra} (h : step c s a = some (s1, o)) :
    runActs c s [a] = some (s1, [o]) := by simp [runActs, h]

theorem run_reachP {c : Cfg} {P : Act → Prop} {s : S} {tr : List (Obs EventExtra)} (h : ReachP c P s tr) {acts : List Act} {s' : S} {o}
    (hP : ∀ a ∈ acts, P a) (hr : runActs c s acts = some (s', o)) : ReachP c P s' (o ++ tr) := by
  induction acts generalizing s tr o with
  | nil => simp only [runActs, Option.some.injEq, Prod.mk.injEq] at hr; obtain ⟨rfl, rfl⟩ := hr; simpa using h
  | cons a as ih =>
    simp only [runActs, Option.bind_eq_some_iff, Option.map_eq_some_iff] at hr
    obtain ⟨⟨s1, o1⟩, hr1, ⟨s2, o2⟩, hq, he⟩ := hr
    simp only [Prod.mk.injEq] at he
    obtain ⟨rfl, rfl⟩ := he
    have := ih (h.step (hP a (by simp)) hr1) (fun b hb => hP b (by simp [hb])) hq
    simpa using this

theorem run_reach {c : Cfg} {s : S} {tr : List (Obs EventExtra)} (h : Reach c s tr) {acts : List Act} {s' : S} {o}
    (hr : runActs c s acts = some (s', o)) : Reach c s' (o ++ tr) := by
  induction acts generalizing s tr o with
  | nil => simp only [runActs, Option.some.injEq, Prod.mk.injEq] at hr; obtain ⟨rfl, rfl⟩ := hr; simpa using h
  | cons a as ih =>
    simp only [runActs, Option.bind_eq_some_iff, Option.map_eq_some_iff] at hr
    obtain ⟨⟨s1, o1⟩, hr1, ⟨s2, o2⟩, hq, he⟩ := hr
    simp only [Prod.mk.injEq] at he
    obtain ⟨rfl, rfl⟩ := he
    have := ih (h.step hr1) hq
    simpa using this

/-- An ordinary poller: timerfd 3, eventfd 4, up to four notifying threads. -/
def exCfg : Cfg := ⟨true, 3, 4, false, 4⟩
/-- The same on an old kernel: no timerfd, a pipe. -/
def exCfg' : Cfg := ⟨false, 3, 4, true, 4⟩

/-- The trace of a run from a fresh poller, whose files are in the conditions `user`. -/
def exTrace (c : Cfg) (user : Fd → Flags) (acts : List Act) : Option (List (Obs EventExtra)) :=
  (runActs c (init c user) acts).map Prod.snd

theorem exTrace_reach {c user acts tr} (h : exTrace c user acts = some tr) : ∃ s, Reach c s tr := by
  unfold exTrace at h
  rw [Option.map_eq_some_iff] at h
  obtain ⟨⟨s, o⟩, hr, rfl⟩ := h
  exact ⟨s, by simpa using run_reach (.init user) hr⟩

/-- One uninterrupted `wait(None)` with an eventfd. -/
def waitActs (cap : Nat) : List Act :=
  [.waitBegin none cap, .compute, .settime none, .armTimer none, .epollReturn, .clearRead, .rearm none, .finish]

end Polling.EpollM
