import Verif.Proof.EpollRun

/-! C12: `wait(None)` is not woken by an earlier timeout. -/

namespace Polling.C12
open EpollM Epoll Spec

theorem timeUp_nat (m t0 now : Nat) : timeUp (m : Int) t0 now = true ↔ t0 + m * 1000000 ≤ now := by
  have : (10 : Nat) ^ 6 = 1000000 := rfl
  simp only [timeUp, Bool.and_eq_true, decide_eq_true_eq, Int.toNat_natCast, this]
  omega

/-- The time limit given to `epoll_wait` for a deadline. -/
theorem limit {hasTimer : Bool} {d t t0 now : Nat} {to : Option Duration} (hto : to = (some d).map fun d => saturatingSince d t)
    (hd : d ≤ unixMaxNs) (ht : t ≤ t0) (hn : t0 ≤ now) (htu : timeUp (epollTimeoutMs hasTimer to) t0 now = true) :
    d ≤ now ∨ (hasTimer = false ∧ t0 + 2147483647000000 ≤ now) := by
  have hns := since_ns (t := t) hd
  subst hto
  simp only [Option.map_some] at htu
  by_cases h0 : (saturatingSince d t).ns = 0
  · left; omega
  · cases hasTimer with
    | true => simp [timeUp, epollTimeoutMs, h0] at htu
    | false =>
      rw [epollMs_eq _ h0, hns] at htu
      have h2 := (timeUp_nat _ _ _).1 htu
      clear htu
      simp only [true_and]
      omega

/-- What can end a `wait`: a batch taken from the OS in any history either has an event of a user's source, or a
notification was written, or the deadline of this very `wait` has passed (or, without timerfd, the longest timeout the
OS call accepts, 2147483647 ms = 2147483647000000 ns, has elapsed since the call).  In particular a `wait(None)`, which has no deadline, is
ended by events and notifications only, whatever timers earlier calls have set or let expire. -/
theorem epoll_wait_ends_by (c : Cfg) (hok : c.Ok) (s s' : S) (tr : List (Obs EventExtra)) (h : Reach c s tr) (a : Act)
    (evs : List (Fd × Event EventExtra)) (hs : step c s a = some (s', .deliver evs)) :
    evs ≠ [] ∨ s.k.count > 0 ∨
    ∃ d cap to t0, s.phase = .polling (some d) cap to t0 ∧
      (d ≤ s.k.time ∨ (c.hasTimer = false ∧ t0 + 2147483647000000 ≤ s.k.time)) := by
  obtain ⟨_, dl, cap, to, t0, hph, hret, rfl, rfl⟩ := deliver_inv hs
  have hT := reach_T h
  rw [hph] at hT
  obtain ⟨hdl, ⟨t, ht, hto⟩, ht0, htim⟩ := hT
  have hk := reach_kinv hok h
  rcases hret with hne | htu
  · -- some descriptor was reported
    obtain ⟨pre, rest, h1, h2, h3, h4, h5⟩ := harvest_spec hk.l cap
    obtain ⟨e, l, hel⟩ := List.exists_cons_of_ne_nil hne
    have he : e ∈ (harvest c s.k cap).1 := by rw [hel]; simp
    cases hi : c.internal e.1 with
    | false =>
      left
      intro hnil
      rw [List.map_eq_nil_iff] at hnil
      have : e ∈ (harvest c s.k cap).1.filter fun e => !c.internal e.1 := List.mem_filter.2 ⟨he, by simp [hi]⟩
      rw [hnil] at this; cases this
    | true =>
      right
      rw [h2, List.mem_map] at he
      obtain ⟨x, hx, hxe⟩ := he
      have hxe1 : x = e.1 := by rw [← hxe]; rfl
      have hhot := (List.mem_filter.1 hx).2
      rw [hxe1] at hhot
      rcases internal_cases hi with hn | ⟨htm, hn⟩
      · left
        rw [hn] at hhot
        by_cases hc : s.k.count > 0
        · exact hc
        · simp [hot, rev, ready, hc] at hhot
          rcases hk.r.notif with hh | hh <;> simp [hh] at hhot
      · right
        rw [hn] at hhot
        have hne' : c.timerFd ≠ c.notifFd := hok htm
        cases htk : s.k.ticks with
        | false =>
          simp [hot, rev, ready, hne', htm, htk] at hhot
          rcases hk.r.timer htm with hh | hh | hh <;> simp [hh] at hhot
        | true =>
          obtain ⟨d, hd, hle⟩ := (htim htm).2 htk
          subst hd
          exact ⟨d, cap, to, t0, hph, .inl hle⟩
  · -- time limit of `epoll_wait`
    right; right
    cases dl with
    | none =>
      subst hto
      simp [timeUp, epollTimeoutMs] at htu
    | some d =>
      refine ⟨d, cap, to, t0, hph, ?_⟩
      exact limit hto (hdl d rfl) ht ht0 htu

/-- The corollary for `wait(None)`. -/
theorem epoll_wait_none (c : Cfg) (hok : c.Ok) (s s' : S) (tr : List (Obs EventExtra)) (h : Reach c s tr) (a : Act)
    (evs : List (Fd × Event EventExtra)) (hs : step c s a = some (s', .deliver evs)) (cap to t0)
    (hph : s.phase = .polling none cap to t0) : evs ≠ [] ∨ s.k.count > 0 := by
  rcases epoll_wait_ends_by c hok s s' tr h a evs hs with h1 | h1 | ⟨d, cap', to', t0', hph', _⟩
  · exact .inl h1
  · exact .inr h1
  · rw [hph] at hph'; cases hph'

/-- And a `wait(None)` really blocks then: as long as no notification is written and no watched condition of a
registered source holds, the OS does not let it return, however much time passes. -/
theorem epoll_wait_none_blocks (c : Cfg) (hok : c.Ok) (s : S) (tr : List (Obs EventExtra)) (h : Reach c s tr) (cap to t0)
    (hph : s.phase = .polling none cap to t0) (hn : s.k.count = 0)
    (hq : ∀ fd cu, current tr fd = some cu → ¬ EpollPending cu.ev (s.k.user fd)) : step c s .epollReturn = none := by
  cases hs : step c s .epollReturn with
  | none => rfl
  | some r =>
    obtain ⟨s', o⟩ := r
    obtain ⟨evs, rfl⟩ : ∃ evs, o = .deliver evs := by
      simp only [step, hph] at hs
      split at hs
      · cases hs; exact ⟨_, rfl⟩
      · cases hs
    rcases epoll_wait_none c hok s s' tr h _ evs hs cap to t0 hph with h1 | h1
    · obtain ⟨e, l, rfl⟩ := List.exists_cons_of_ne_nil h1
      obtain ⟨_, dl, cap', to', t0', _, _, _, hev⟩ := deliver_inv hs
      obtain ⟨_, cu, hc, _, hne, _⟩ := (delivery (reach_kinv hok h) cap').sound e.1 e.2 (by rw [← hev]; simp)
      exact absurd ((pending_iff cu _).1 hne) (hq _ cu hc)
    · omega

/-- A `wait(Some(5 ms))` times out, and a following one is ended by an event before its timer fires; then the timer
fires at last; still `wait(None)` blocks. -/
def exTimers : List Act :=
  [.add 7 (Event.onlyReadable 11) .oneshot none,
   .waitBegin (some ⟨5000000, by decide⟩) 5, .compute, .settime none, .armTimer none, .tick 5000000, .epollReturn, .clearRead, .rearm none, .finish,
   .waitBegin (some ⟨7000000, by decide⟩) 5, .compute, .settime none, .armTimer none, .setReady 7 IN IN, .epollReturn, .clearRead, .rearm none,
   .finish, .tick 9000000, .waitBegin none 5, .compute, .settime none, .armTimer none, .tick 90000000]

example : (exTrace exCfg (fun _ => 0#32) exTimers).map (fun tr => tr.filterMap fun o => match o with
      | .waitOk n _ => some n
      | _ => none) = some [1, 0] ∧
    exTrace exCfg (fun _ => 0#32) (exTimers ++ [.epollReturn]) = none := by decide +kernel

end Polling.C12
