import Verif.Proof.PollInv
import Verif.Spec.PollTrace

/-! The shared table follows the observed atomic steps; calls and waits follow their protocols. -/

set_option linter.unusedSimpArgs false

namespace Polling.PollP
open PollB PollFlags PollSpec

theorem mapAfter_append (how) (i : Internal) (xs ys : List Step) : ∀ m,
    mapAfter how i m (xs ++ ys) = mapAfter how i (mapAfter how i m xs) ys := by
  induction xs with
  | nil => intro m; rfl
  | cons s rest ih => intro m; simp [mapAfter, ih]

theorem ordersOk_append (how) (i : Internal) (xs ys : List Step) : ∀ m,
    OrdersOk how i m (xs ++ ys) ↔ OrdersOk how i m xs ∧ OrdersOk how i (mapAfter how i m xs) ys := by
  induction xs with
  | nil => intro m; simp [OrdersOk, mapAfter]
  | cons s rest ih => intro m; simp [OrdersOk, mapAfter, ih, and_assoc]

/-- The map that results from the observed steps. -/
abbrev mapOf (c : Cfg) (tr : List PObs) : Map := mapAfter applyAsCoded c.n.spec (fun _ => none) (steps tr)

structure T (c : Cfg) (s : S) (tr : List PObs) : Prop where
  inv : Inv c.n s.tbl
  rel : Rel s.tbl (mapOf c tr)
  outs : outs tr = runSpec applyAsCoded c.n.spec (fun _ => none) (steps tr)
  orders : OrdersOk applyAsCoded c.n.spec (fun _ => none) (steps tr)

theorem init_T (c : Cfg) : T c (init c) [] := ⟨init_inv c.n, init_rel c.n, rfl, trivial⟩

/-- Steps that neither change nor read the table. -/
theorem T.keep {c s s' tr o} (h : T c s tr) (ht : s'.tbl = s.tbl) (hs : steps (o :: tr) = steps tr)
    (ho : PollP.outs (o :: tr) = PollP.outs tr) : T c s' (o :: tr) := by
  refine ⟨ht ▸ h.inv, ?_, by rw [ho, hs]; exact h.outs, by rw [hs]; exact h.orders⟩
  rw [ht, mapOf, hs]; exact h.rel

theorem lists_of_perm {n fds m order} (h : Inv n fds) (hr : Rel fds m)
    (ho : order.isPerm (fds.pollFds.tail.map PollFd.fd) = true) : ListsAll order m := by
  have hp := List.isPerm_iff.1 ho
  refine ⟨hp.nodup_iff.2 (tail_nodup h), fun fd => ?_⟩
  rw [hp.mem_iff, tail_mem h]
  have := hr.none_iff fd
  cases h1 : fds.fdData fd <;> cases h2 : m fd <;> simp_all

theorem T.round {c s tr t os order tbl out} (h : T c s tr) (ho : order.isPerm (s.tbl.pollFds.tail.map PollFd.fd) = true)
    (hr : PollB.round os order s.notified s.tbl = some (tbl, out)) :
    ∃ o', (out = .again ∧ o' = .again ∨ ∃ l, out = .done l ∧ o' = .events l) ∧
      Inv c.n tbl ∧ Rel tbl (mapOf c (.round t os order s.notified o' :: tr)) ∧
      (PollP.outs (.round t os order s.notified o' :: tr) =
        runSpec applyAsCoded c.n.spec (fun _ => none) (steps (.round t os order s.notified o' :: tr))) ∧
      OrdersOk applyAsCoded c.n.spec (fun _ => none) (steps (.round t os order s.notified o' :: tr)) := by
  have hl := lists_of_perm h.inv h.rel ho
  obtain ⟨fds', hi', hr', heq⟩ := round_spec h.inv h.rel os order (enumerates_of h.rel hl) s.notified
  rw [hr] at heq
  have heq := Option.some.inj heq
  by_cases hc : s.notified = false ∧ os c.n.readFd c.n.flags ≠ 0#16 ∧ (∀ fd ∈ order, result os (mapOf c tr) fd = 0#16)
  · have hst : stepSpec applyAsCoded c.n.spec (mapOf c tr) (.round os order s.notified) = (.again, mapOf c tr) := by
      simp only [stepSpec]; exact if_pos hc
    rw [if_pos hc] at heq
    injection heq with h1 h2; subst h1 h2
    rw [afterWait_quiet (quiet_all hl hc.2.2)] at hr'
    refine ⟨.again, .inl ⟨rfl, rfl⟩, hi', ?_, ?_, ?_⟩
    · rw [mapOf, steps, mapAfter_append]; simp only [mapAfter, hst]; exact hr'
    · simp only [PollP.outs, steps, runSpec_append, h.outs, runSpec]; rw [hst]
    · simp only [steps, ordersOk_append]; exact ⟨h.orders, hl, trivial⟩
  · have hst : stepSpec applyAsCoded c.n.spec (mapOf c tr) (.round os order s.notified) =
        (.events (waitEvents os (mapOf c tr) order), afterWait os (mapOf c tr)) := by
      simp only [stepSpec]; exact if_neg hc
    rw [if_neg hc] at heq
    injection heq with h1 h2; subst h1 h2
    refine ⟨.events (waitEvents os (mapOf c tr) order), .inr ⟨_, rfl, rfl⟩, hi', ?_, ?_, ?_⟩
    · rw [mapOf, steps, mapAfter_append]; simp only [mapAfter, hst]; exact hr'
    · simp only [PollP.outs, steps, runSpec_append, h.outs, runSpec]; rw [hst]
    · simp only [steps, ordersOk_append]; exact ⟨h.orders, hl, trivial⟩

theorem next_T {c : Cfg} {s s' : S} {t : Tid} {a : Act} {o : PObs} {tr} (hn : Next c s t a s' o) (h : T c s tr) :
    T c s' (o :: tr) := by
  cases hn
  case callApply op r tbl hp hc =>
    obtain ⟨fds', heq, hi', hr'⟩ := call_spec h.inv h.rel op
    rw [hc] at heq
    have heq := Option.some.inj heq
    injection heq with h1 h2; subst h1 h2
    refine ⟨hi', ?_, ?_, ?_⟩
    · show Rel _ (mapAfter _ _ _ (steps tr ++ [.call op]))
      rw [mapAfter_append]; exact hr'
    · simp only [outs, steps, runSpec_append, h.outs, runSpec]; rfl
    · simp only [steps, ordersOk_append]; exact ⟨h.orders, trivial, trivial⟩
  case waitAgain b os order tbl hp ho hr =>
    obtain ⟨o', ho', h1, h2, h3, h4⟩ := h.round (t := t) ho hr
    rcases ho' with ⟨_, rfl⟩ | ⟨l, hl, _⟩
    · exact ⟨h1, h2, h3, h4⟩
    · cases hl
  case waitDone b os order tbl evs hp ho hr =>
    obtain ⟨o', ho', h1, h2, h3, h4⟩ := h.round (t := t) ho hr
    rcases ho' with ⟨hl, _⟩ | ⟨l, hl, rfl⟩
    · cases hl
    · cases hl; exact ⟨h1, h2, h3, h4⟩
  all_goals exact h.keep rfl rfl rfl

/-- What the position of a thread says about its registration call. -/
def callOf : Pc → CallSt
  | .mWrite op | .mLock op _ | .mPop op | .mApply op => .begun op
  | .mDec r | .mCv r | .mUnlock r => .done r
  | _ => .idle

theorem wake_callOf (pc : Tid → Pc) (u : Tid) : callOf (wake pc u) = callOf (pc u) := by
  unfold wake; split
  · next h => rw [h]; rfl
  · rfl

theorem next_call {c : Cfg} {s s' : S} {t : Tid} {a : Act} {o : PObs} {tr} (hn : Next c s t a s' o)
    (h : ∀ u, callState u tr = some (callOf (s.pc u))) : ∀ u, callState u (o :: tr) = some (callOf (s'.pc u)) := by
  intro u
  have hu := h u
  by_cases e : u = t
  · subst e
    cases hn <;> simp only [callState, hu, Option.bind_some, wake_callOf, upd_self, callNext] <;> simp_all [callOf]
  · have e' : ¬ t = u := fun h => e h.symm
    cases hn <;> simp_all [callState, callNext, upd_ne _ _ e, wake_callOf]

/-- The events with which the `wait` is about to return. -/
def okEvs : Pc → Option (List (Event EventExtra))
  | .wUnlock _ (.ok evs) | .wFinish _ (.ok evs) => some evs
  | _ => none

theorem wake_okEvs (pc : Tid → Pc) (u : Tid) : okEvs (wake pc u) = okEvs (pc u) := by
  unfold wake; split
  · next h => rw [h]; rfl
  · rfl

/-- What the state says about the `wait` in progress. -/
def W (s : S) (st : WaitSt) : Prop :=
  (s.lib = none ∧ st = .idle) ∨
  ∃ t, s.lib = some t ∧ ((st = .waiting t ∧ (okEvs (s.pc t) = none ∨ okEvs (s.pc t) = some [])) ∨
    ∃ l, st = .got t l ∧ okEvs (s.pc t) = some l)

theorem next_wait {c : Cfg} {s s' : S} {t : Tid} {a : Act} {o : PObs} {tr} (hn : Next c s t a s' o) (hI : I c s)
    {st} (hs : waitState tr = some st) (h : W s st) : ∃ st', waitState (o :: tr) = some st' ∧ W s' st' := by
  have hlt := hI.lib t
  by_cases hin : inWait (s.pc t) = true
  · -- the step of the waiting thread
    have hl := hlt.1 hin
    rcases h with ⟨h, _⟩ | ⟨u, hu, h⟩
    · rw [h] at hl; cases hl
    · rw [hl] at hu; obtain rfl := Option.some.inj hu
      rcases h with ⟨rfl, h⟩ | ⟨l, rfl, h⟩
      all_goals
        cases hn
        case waitUnlock b r hp => cases r <;> simp_all [waitState, waitNext, okEvs, W, upd_self]
        all_goals
          simp only [waitState, hs, Option.bind_some, waitNext]
          simp_all [inWait, okEvs, W, upd_self, visible]
  · -- the step of another thread: it is not the one that waits
    have hl : s.lib ≠ some t := fun e => hin (hlt.2 e)
    rcases h with ⟨h, rfl⟩ | ⟨u, hu, h⟩
    · cases hn <;> simp only [waitState, hs, Option.bind_some, waitNext] <;>
        simp_all [inWait, okEvs, W, upd_self]
    · have hne : u ≠ t := by intro e; subst e; exact hl hu
      cases hn <;> simp only [waitState, hs, Option.bind_some, waitNext] <;>
        simp_all [inWait, W, upd_ne _ _ hne, wake_okEvs]
      all_goals (rcases h with ⟨rfl, h⟩ | ⟨l, rfl, h⟩ <;> simp_all)

/-- In `poll()` or evaluating its results. -/
def looks : Pc → Bool
  | .wPoll _ | .wPopAll _ _ | .wSwap2 _ _ => true
  | _ => false

theorem next_looking {c : Cfg} {s s' : S} {t : Tid} {a : Act} {o : PObs} {tr} (hn : Next c s t a s' o) (hI : I c s)
    (h : ∃ x, looking tr = some x ∧ ∀ u, looks (s.pc u) = true ↔ x = some u) :
    ∃ x, looking (o :: tr) = some x ∧ ∀ u, looks (s'.pc u) = true ↔ x = some u := by
  obtain ⟨x, hx, h⟩ := h
  have hw : ∀ pc u, looks (wake pc u) = looks (pc u) := wake_P fun _ => rfl
  have ht := h t
  by_cases hx0 : x = none
  · subst hx0
    have hself : ∀ p, looks p = false → ∀ u, looks (upd s.pc t p u) = true ↔ (none : Option Tid) = some u := by
      intro p hp u
      by_cases e : u = t
      · subst e; simp [upd_self, hp]
      · rw [upd_ne _ _ e]; exact h u
    have hself2 : ∀ p, looks p = true → ∀ u, looks (upd s.pc t p u) = true ↔ some t = some u := by
      intro p hp u
      by_cases e : u = t
      · subst e; simp [upd_self, hp]
      · have := h u
        have e' : ¬ t = u := fun h => e h.symm
        rw [upd_ne _ _ e]; simp_all
    cases hn
    case waitLoad => exact ⟨some t, by simp [looking, hx], hself2 _ rfl⟩
    case callApply => exact ⟨none, by simp [looking, hx], hself _ rfl⟩
    case notifyAtOnce | waitBusy => exact ⟨none, hx, h⟩
    case notifyCv | callCv => exact ⟨none, by simp [looking, hx], fun u => by rw [hw]; exact hself _ rfl u⟩
    all_goals first
      | exact ⟨none, hx, hself _ rfl⟩
      | (exfalso; simp_all [looks])
  · obtain ⟨v, rfl⟩ := Option.ne_none_iff_exists'.1 hx0
    have hv := (h v).2 rfl
    have hvh : holds (s.pc v) = true := by revert hv; cases s.pc v <;> simp [looks, holds]
    by_cases e : v = t
    · subst e
      have hself : ∀ p, looks p = false → ∀ u, looks (upd s.pc v p u) = true ↔ (none : Option Tid) = some u := by
        intro p hp u
        by_cases e : u = v
        · subst e; simp [upd_self, hp]
        · have := h u
          have e' : ¬ v = u := fun h => e h.symm
          rw [upd_ne _ _ e]; simp_all
      have hself2 : ∀ p, looks p = true → ∀ u, looks (upd s.pc v p u) = true ↔ some v = some u := by
        intro p hp u
        by_cases e : u = v
        · subst e; simp [upd_self, hp]
        · rw [upd_ne _ _ e]; exact h u
      cases hn
      case waitAgain | waitDone | waitPollFail => exact ⟨none, by simp [looking, hx], hself _ rfl⟩
      case notifyAtOnce | waitBusy => exact ⟨some v, hx, h⟩
      all_goals first
        | exact ⟨some v, hx, hself2 _ rfl⟩
        | (exfalso; simp_all [looks])
    · have hother : ∀ p, looks p = false → ∀ u, looks (upd s.pc t p u) = true ↔ some v = some u := by
        intro p hp u
        by_cases e' : u = t
        · subst e'
          have : ¬ v = u := e
          simp [upd_self, hp, this]
        · rw [upd_ne _ _ e']; exact h u
      have hth : holds (s.pc t) = false := by
        cases hh : holds (s.pc t) with
        | false => rfl
        | true =>
          have h1 := (hI.mtx t).1 hh
          have h2 := (hI.mtx v).1 hvh
          rw [h1] at h2; exact absurd (Option.some.inj h2).symm e
      cases hn
      case notifyAtOnce | waitBusy => exact ⟨some v, hx, h⟩
      case notifyCv => exact ⟨some v, by simp [looking, hx], fun u => by rw [hw]; exact hother _ rfl u⟩
      all_goals first
        | exact ⟨some v, hx, hother _ rfl⟩
        | (exfalso; simp_all [holds])

end Polling.PollP
