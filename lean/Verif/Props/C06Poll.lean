import Verif.Props.PollDelivery

/-!
C06 (poll, with the pipe): used by one thread, any number of `notify` calls make exactly the next `wait` return at once.
(With an eventfd it is false even so: `C05.poll_eventfd_wait_fails_sequentially`, `C05.poll_hermit_notified_wait_hangs`.)
-/

set_option linter.unusedSimpArgs false

namespace Polling.C06
open PollP PollB PollFlags PollSpec Spec

/-- The bytes a notification accounts for. -/
def bit (b : Bool) : Nat := if b then 1 else 0

/-- The state of a poller used by one thread, by the position of the thread. -/
def One (s : S) (tr : List PObs) : Prop :=
  match s.pc 0 with
  | .out => s.chan = bit s.notified ∧ s.libNotified = s.notified ∧ s.ops = 0 ∧ owed (history true tr) = s.libNotified
  | .nSwap => s.chan = 0 ∧ s.notified = false ∧ s.libNotified = true ∧ s.ops = 0
  | .nWrite => s.chan = 0 ∧ s.notified = true ∧ s.libNotified = true ∧ s.ops = 0
  | .nCv => s.chan = 1 ∧ s.notified = true ∧ s.libNotified = true ∧ s.ops = 0
  | .mWrite _ => s.chan = bit s.notified ∧ s.libNotified = s.notified ∧ s.ops = 1 ∧ owed (history true tr) = s.libNotified
  | .mLock _ sent => sent = true ∧ s.chan = bit s.notified + 1 ∧ s.libNotified = s.notified ∧ s.ops = 1 ∧ owed (history true tr) = s.libNotified
  | .mPop _ => s.chan = bit s.notified + 1 ∧ s.libNotified = s.notified ∧ s.ops = 1 ∧ owed (history true tr) = s.libNotified
  | .mApply _ | .mDec _ => s.chan = bit s.notified ∧ s.libNotified = s.notified ∧ s.ops = 1 ∧ owed (history true tr) = s.libNotified
  | .mCv _ | .mUnlock _ => s.chan = bit s.notified ∧ s.libNotified = s.notified ∧ s.ops = 0 ∧ owed (history true tr) = s.libNotified
  | .wLock _ | .wSwap _ => s.chan = bit s.notified ∧ s.libNotified = s.notified ∧ s.ops = 0 ∧ owed (history true tr) = s.libNotified
  | .wPop _ => s.chan = 1 ∧ s.notified = false ∧ s.libNotified = true ∧ s.ops = 0 ∧ owed (history true tr) = s.libNotified
  | .wLoad _ | .wPoll _ | .wSwap2 _ _ => s.chan = 0 ∧ s.notified = false ∧ s.libNotified = false ∧ s.ops = 0 ∧ owed (history true tr) = false
  | .wPark _ | .wSleep _ | .wRelock _ | .wPopAll _ _ => False
  | .wUnlock _ r | .wFinish _ r => s.chan = 0 ∧ s.notified = false ∧ s.ops = 0 ∧ owed (history true tr) = s.libNotified ∧
      (s.libNotified = true → r = .ok [])

theorem owed_applied (t op r) (tr : List PObs) : owed (history true (.applied t op r :: tr)) = owed (history true tr) := by
  cases op <;> cases r
  case modify.err fd ev mode e =>
    cases e
    case unsupported => simp only [history]; split <;> rfl
    all_goals rfl
  all_goals rfl

theorem owed_round (t os order n o) (tr : List PObs) : owed (history true (.round t os order n o :: tr)) = owed (history true tr) := by
  cases o <;> rfl

theorem reach_one {c s tr} (h : Reach c WritesWork s tr) (h1 : c.threads = 1) (hp : c.chan = .pipe) : One s tr := by
  induction h with
  | init => exact ⟨rfl, rfl, rfl, rfl⟩
  | @step s tr t a s' o hr ha hs ih =>
    obtain ⟨ht, hn⟩ := step_next hs
    have ht0 : t = 0 := by omega
    subst ht0
    have hmt := (reach_I hr).mtx 0
    cases hn
    case notifyCv h => simp_all [One, wake, upd_self, history, owed, bit]
    case callCv h => simp_all [One, wake, upd_self, history, owed, bit]
    case callWriteFail => cases ha
    case notifyWriteFail => cases ha
    case callApply => simp_all [One, upd_self, owed_applied]
    case waitAgain => simp_all [One, upd_self, owed_round, bit]
    case waitDone => simp_all [One, upd_self, owed_round]
    all_goals simp_all [One, upd_self, history, owed, bit, pop, popAll]

/-- The steps of a whole `wait` that finds a notification: it does not call `poll()`. -/
def quickWait (timed : Bool) : List (Nat × Act) :=
  [(0, .waitBegin timed), (0, .waitLock), (0, .waitSwap), (0, .waitPop), (0, .waitUnlock), (0, .waitFinish)]

/-- `n` calls of `notify` (each ends after its first step if one is pending already). -/
def notifies (s : S) : Nat → List (Nat × Act)
  | 0 => []
  | n + 1 => if s.libNotified then List.replicate (n + 1) (0, .notifyCas)
    else [(0, .notifyCas), (0, .notifySwap), (0, .notifyWrite true), (0, .notifyCv)] ++ List.replicate n (0, .notifyCas)

/-- After any history of a poller used by one thread: if a `notify` has returned since the last `wait` that returned
`Ok`, the next `wait` (with or without timeout, whatever is registered and ready) returns at once with `Ok(0)` and no
events, and no notification is pending then. -/
theorem poll_notify_consumed {c s tr} (h : Reach c WritesWork s tr) (h1 : c.threads = 1) (hp : c.chan = .pipe)
    (hout : s.pc 0 = .out) (ho : owed (history true tr) = true) (timed : Bool) :
    ∃ s' obs, runActs c s (quickWait timed) = some (s', .waitOk 0 0 [] :: obs) ∧ owed (history true (.waitOk 0 0 [] :: obs ++ tr)) = false ∧
      s'.pc 0 = .out ∧ s'.chan = 0 ∧ s'.notified = false ∧ s'.libNotified = false := by
  have hone := reach_one h h1 hp
  have hI := reach_I h
  have hm : s.mtx = none := by
    cases hm : s.mtx with
    | none => rfl
    | some u =>
      have hu := (hI.mtx u).2 hm
      by_cases e : u = 0
      · subst e; rw [hout] at hu; cases hu
      · rw [hI.range u (by omega)] at hu; cases hu
  have hl : s.lib = none := by
    cases hl : s.lib with
    | none => rfl
    | some u =>
      have hu := (hI.lib u).2 hl
      by_cases e : u = 0
      · subst e; rw [hout] at hu; cases hu
      · rw [hI.range u (by omega)] at hu; cases hu
  simp only [One, hout] at hone
  obtain ⟨hc, hln, hops, howed⟩ := hone
  rw [ho] at howed
  have hn : s.notified = true := by rw [← hln, ← howed]
  have hch : s.chan = 1 := by rw [hc, hn]; rfl
  have hlt : (0 : Nat) < c.threads := by omega
  simp [runActs, quickWait, step, hlt, hout, hl, hm, hn, hch, hp, PollP.upd, pop, visible, history, owed]

/-- Any number of `notify` calls. -/
theorem poll_notifies {c s tr} (h : Reach c WritesWork s tr) (h1 : c.threads = 1) (hp : c.chan = .pipe) (hout : s.pc 0 = .out) (n : Nat)
    (hn : 0 < n) : ∃ s' obs, runActs c s (notifies s n) = some (s', obs) ∧ s'.pc 0 = .out ∧ owed (history true (obs ++ tr)) = true ∧
      Reach c WritesWork s' (obs ++ tr) := by
  have hlt : (0 : Nat) < c.threads := by omega
  have hone := reach_one h h1 hp
  simp only [One, hout] at hone
  have rep : ∀ n (s : S) tr, s.pc 0 = .out → s.libNotified = true → owed (history true tr) = true →
      ∃ obs, runActs c s (List.replicate n (0, .notifyCas)) = some (s, obs) ∧ owed (history true (obs ++ tr)) = true := by
    intro n
    induction n with
    | zero => intro s tr _ _ ho; exact ⟨[], rfl, ho⟩
    | succ n ih =>
      intro s tr h1 h2 ho
      obtain ⟨obs, h3, h4⟩ := ih s (.notifiedAtOnce 0 :: tr) h1 h2 rfl
      refine ⟨obs ++ [.notifiedAtOnce 0], ?_, by simpa using h4⟩
      simp [List.replicate_succ, runActs, step, hlt, h1, h2, h3]
  have wr : ∀ m, ∀ a ∈ List.replicate m ((0 : Nat), Act.notifyCas), WritesWork a.2 := by
    intro m a ha; rw [List.mem_replicate] at ha; rw [ha.2]; trivial
  obtain ⟨m, rfl⟩ : ∃ m, n = m + 1 := ⟨n - 1, by omega⟩
  by_cases hl : s.libNotified = true
  · simp only [notifies, hl, if_true]
    obtain ⟨obs, h3, h4⟩ := rep (m + 1) s tr hout hl (by rw [hone.2.2.2, hl])
    exact ⟨s, obs, h3, hout, h4, reach_run h _ _ _ (wr _) h3⟩
  · have hl : s.libNotified = false := by simpa using hl
    have hnf : s.notified = false := by rw [← hone.2.1, hl]
    simp only [notifies, hl, Bool.false_eq_true, if_false]
    obtain ⟨s1, h5, h6, h7⟩ : ∃ s1, runActs c s [(0, .notifyCas), (0, .notifySwap), (0, .notifyWrite true), (0, .notifyCv)] =
        some (s1, [.notified 0, .tau, .tau, .notifyBegin 0]) ∧ s1.pc 0 = .out ∧ s1.libNotified = true := by
      simp [runActs, step, hlt, hout, hl, hnf, PollP.upd, wake]
    have hr1 := reach_run h _ _ _ (by
      intro a ha
      simp only [List.mem_cons, List.not_mem_nil, or_false] at ha
      rcases ha with rfl | rfl | rfl | rfl <;> trivial) h5
    obtain ⟨obs, h3, h4⟩ := rep m s1 ([.notified 0, .tau, .tau, .notifyBegin 0] ++ tr) h6 h7 rfl
    have happ : ∀ (l1 l2 : List (Nat × Act)) (s s1 s2 : S) o1 o2, runActs c s l1 = some (s1, o1) → runActs c s1 l2 = some (s2, o2) →
        runActs c s (l1 ++ l2) = some (s2, o2 ++ o1) := by
      intro l1
      induction l1 with
      | nil => intro l2 s s1 s2 o1 o2 h1 h2; cases h1; simpa using h2
      | cons a l1 ih =>
        obtain ⟨t, a⟩ := a
        intro l2 s s1 s2 o1 o2 h1 h2
        simp only [List.cons_append, runActs, Option.bind_eq_some_iff, Option.map_eq_some_iff] at h1 ⊢
        obtain ⟨⟨s3, o3⟩, h3, ⟨s4, o4⟩, h4, h5⟩ := h1
        injection h5 with h5 h6; subst h5 h6
        exact ⟨_, h3, _, ih l2 s3 s4 s2 o4 o2 h4 h2, by simp⟩
    refine ⟨s1, obs ++ [.notified 0, .tau, .tau, .notifyBegin 0], happ _ _ _ _ _ _ _ h5 h3, h6, by simpa using h4, ?_⟩
    have := reach_run hr1 _ _ _ (wr m) h3
    simpa using this

/-- Together: after any history of one thread, `n ≥ 1` calls of `notify` make the next `wait` return at once with `Ok(0)`,
and leave nothing that could wake the one after it. -/
theorem poll_notify_coalesced {c s tr} (h : Reach c WritesWork s tr) (h1 : c.threads = 1) (hp : c.chan = .pipe) (hout : s.pc 0 = .out)
    (n : Nat) (hn : 0 < n) (timed : Bool) : ∃ s1 obs1 s2 obs2, runActs c s (notifies s n) = some (s1, obs1) ∧
      runActs c s1 (quickWait timed) = some (s2, .waitOk 0 0 [] :: obs2) ∧
      s2.pc 0 = .out ∧ s2.chan = 0 ∧ s2.notified = false ∧ s2.libNotified = false := by
  obtain ⟨s1, obs1, h2, h3, h4, h5⟩ := poll_notifies h h1 hp hout n hn
  obtain ⟨s2, obs2, h6, _, h7⟩ := poll_notify_consumed h5 h1 hp h3 h4 timed
  exact ⟨s1, obs1, s2, obs2, h2, h6, h7⟩

/-- With no notification owed, a `wait` does call `poll()`, and without timeout stays there as long as `poll()` reports
nothing about the registered sources. -/
theorem poll_wait_not_woken {c s tr} (h : Reach c WritesWork s tr) (h1 : c.threads = 1) (hp : c.chan = .pipe)
    (hpc : s.pc 0 = .wPoll false) (os : Fd → Flags → Flags)
    (hq : ∀ fd cu, current (history true tr) fd = some cu → os fd (asks cu) = 0#16) : step c s 0 (.waitPoll os) = none := by
  have hone := reach_one h h1 hp
  simp only [One, hpc] at hone
  have hlt : (0 : Nat) < c.threads := by omega
  simp only [step, if_pos hlt, hpc]
  rw [if_neg]
  rintro ⟨ho, hc⟩
  simp only [hone.1, Nat.lt_irrefl, decide_false, gt_iff_lt, decide_eq_false_iff_not, Decidable.not_not] at ho
  rcases hc with hc | hc
  · have hT := reach_T h
    obtain ⟨p, hp', hf, he⟩ := hT.inv.zero
    simp only [osPoll, gt_iff_lt] at hc
    obtain ⟨q, hq'⟩ := List.exists_mem_of_length_pos hc
    rw [List.mem_filter, List.mem_map] at hq'
    obtain ⟨⟨q', hq1, rfl⟩, hq2⟩ := hq'
    simp only [bne_iff_ne] at hq2
    obtain ⟨i, hi, hiq⟩ := List.getElem_of_mem hq1
    have hget : s.tbl.pollFds[i]? = some q' := by rw [List.getElem?_eq_getElem hi, hiq]
    by_cases hi0 : i = 0
    · subst hi0
      rw [hp'] at hget; obtain rfl := Option.some.inj hget
      rw [hf, he] at hq2; exact hq2 ho
    · obtain ⟨d, hd, hdi⟩ := hT.inv.bwd i q' (by omega) hget
      rcases hT.rel q'.fd with ⟨h2, _⟩ | ⟨d', r, p', h2, h3, h4, _, _, h6⟩
      · rw [h2] at hd; cases hd
      · rw [h2] at hd; obtain rfl := Option.some.inj hd
        rw [hdi, hget] at h4; obtain rfl := Option.some.inj h4
        have hm := reach_match h q'.fd
        rw [h3] at hm
        rcases id hm with ⟨_, h⟩ | ⟨cu, _, h7, _⟩
        · cases h
        · rw [h7] at hm
          rw [h6, hm.ask] at hq2
          exact hq2 (hq _ cu h7)
  · cases hc

/-- Three calls of `notify`, a `wait` that returns at once, and one that gets as far as `poll()`. -/
example : ((runActs PollEx.cfg (PollP.init PollEx.cfg) (notifies (PollP.init PollEx.cfg) 3 ++ quickWait false ++
      [(0, .waitBegin false), (0, .waitLock), (0, .waitSwap), (0, .waitLoad)])).map fun r =>
      decide (r.1.chan = 0) && (match r.1.pc 0 with | .wPoll false => true | _ => false) &&
      decide ((history true r.2).filter (fun o => match o with | .waitOk _ _ => true | _ => false) = [.waitOk 0 []])) = some true := by
  decide +kernel

end Polling.C06
