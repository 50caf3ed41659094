import Verif.Proof.PollReach

/-!
C34: the descriptor table of the poll backend is never changed while it is being polled or changed; each registration
change is applied exactly once; what the OS gets is the result of the changes applied so far.

All statements are about arbitrary runs (`Reach c Any`) of any number of threads.
-/

namespace Polling.C34
open PollP PollB PollFlags PollSpec

/-- Every registration call of every thread is: begin, then exactly one change of the table, then the return of the
result of that change. -/
theorem poll_applied_once {c s tr} (h : Reach c Any s tr) (t : Nat) : callState t tr ≠ none := by
  rw [reach_call h t]; simp

/-- Calls and the evaluations of the results of `poll()` happen, in the order in which they are observed, as atomic
steps of the abstract map: every result and every list of events is the one the map gives.  (`applyAsCoded`: see
C17 about a failing `modify`.) -/
theorem poll_linearizable {c s tr} (h : Reach c Any s tr) :
    outs tr = runSpec applyAsCoded c.n.spec (fun _ => none) (steps tr) ∧
    OrdersOk applyAsCoded c.n.spec (fun _ => none) (steps tr) := ⟨(reach_T h).outs, (reach_T h).orders⟩

/-- From the call of `poll()` until its results are evaluated no registration call changes the table, and no other
thread looks at it. -/
theorem poll_table_stable {c s tr} (h : Reach c Any s tr) : looking tr ≠ none := by
  obtain ⟨x, hx, _⟩ := reach_looking h
  rw [hx]; simp

/-- At most one thread waits; what it returns is what its last look at the descriptors gave; others get `Ok(0)`. -/
theorem poll_one_waiter {c s tr} (h : Reach c Any s tr) : waitState tr ≠ none := by
  obtain ⟨st, hs, _⟩ := reach_wait h
  rw [hs]; simp

/-- The table has the notification descriptor first, and then exactly one entry per registration, which asks for
exactly its interest. -/
def TableOf (i : Internal) (m : Map) (table : List PollFd) : Prop :=
  (∃ p rest, table = p :: rest ∧ p.fd = i.fd ∧ p.events = i.flags ∧ (rest.map PollFd.fd).Nodup ∧
    ∀ fd ev, (∃ q ∈ rest, q.fd = fd ∧ q.events = ev) ↔ ∃ r, m fd = some r ∧ r.ask = ev)

theorem tableOf {n fds m} (h : Inv n fds) (hr : Rel fds m) : TableOf n.spec m fds.pollFds := by
  obtain ⟨p, hp, hf, he⟩ := h.zero
  obtain ⟨rest, hrest⟩ : ∃ rest, fds.pollFds = p :: rest := by
    cases hl : fds.pollFds with
    | nil => rw [hl] at hp; cases hp
    | cons q rest => rw [hl] at hp; cases hp; exact ⟨rest, rfl⟩
  refine ⟨p, rest, hrest, hf, he, ?_, fun fd ev => ?_⟩
  · have := tail_nodup h; rw [hrest] at this; exact this
  · constructor
    · rintro ⟨q, hq, hqf, hqe⟩
      obtain ⟨i, hi, hiq⟩ := List.getElem_of_mem hq
      have hget : fds.pollFds[i + 1]? = some q := by
        rw [hrest, List.getElem?_cons_succ, List.getElem?_eq_getElem hi, hiq]
      obtain ⟨d, hd, hdi⟩ := h.bwd (i + 1) q (by omega) hget
      rw [hqf] at hd
      rcases hr fd with ⟨h1, _⟩ | ⟨d', r, p', h1, h2, h3, _, _, h6⟩
      · rw [h1] at hd; cases hd
      · rw [h1] at hd; obtain rfl := Option.some.inj hd
        rw [hdi, hget] at h3; obtain rfl := Option.some.inj h3
        exact ⟨r, h2, h6 ▸ hqe⟩
    · rintro ⟨r, hm, hask⟩
      rcases hr fd with ⟨_, h2⟩ | ⟨d, r', p', h1, h2, h3, _, _, h6⟩
      · rw [h2] at hm; cases hm
      · rw [h2] at hm; obtain rfl := Option.some.inj hm
        obtain ⟨hge, p'', hp'', hf''⟩ := h.fwd fd d h1
        rw [h3] at hp''; obtain rfl := Option.some.inj hp''
        refine ⟨p', ?_, hf'', h6.trans hask⟩
        rw [hrest] at h3
        obtain ⟨k, hk⟩ : ∃ k, d.index = k + 1 := ⟨d.index - 1, by omega⟩
        rw [hk, List.getElem?_cons_succ] at h3
        exact List.mem_of_getElem? h3

/-- Whenever `poll()` is called, the table it gets represents the map that results from all changes applied so far,
in their order. -/
theorem poll_table_passed {c s tr t table} (h : Reach c Any s (.polled t table :: tr)) :
    TableOf c.n.spec (mapAfter applyAsCoded c.n.spec (fun _ => none) (steps tr)) table := by
  cases h with
  | step hr _ hs =>
    have hT := reach_T hr
    have hn := (step_next hs).2
    generalize ho : PObs.polled t table = o at hn
    cases hn <;> cases ho
    exact tableOf hT.inv hT.rel

/-- Two threads: thread 1 adds descriptor 7 while thread 0 waits, then thread 0 polls and returns the event. -/
def exCfg : Cfg := ⟨⟨3, 4, IN⟩, .pipe, 2⟩
def exEv : Event EventExtra := ⟨42, true, false, ⟨0⟩⟩
def exOs : Fd → Flags → Flags := fun fd _ => if fd = 7 then IN else 0
def exRun : List (Nat × Act) :=
  [(0, .waitBegin false), (1, .callBegin (.add 7 exEv .oneshot)), (0, .waitLock), (1, .callWrite true), (0, .waitSwap),
   (0, .waitLoad), (0, .waitPark), (1, .callLock), (1, .callPop), (1, .callApply), (1, .callDec), (1, .callCv), (1, .callUnlock),
   (0, .waitRelock), (0, .waitSwap), (0, .waitLoad), (0, .waitPoll exOs), (0, .waitSwap2 [7]), (0, .waitUnlock), (0, .waitFinish)]

example : ∃ s tr, Reach exCfg Any s tr ∧ outs tr = [.res .ok, .events [⟨42, true, false, ⟨IN⟩⟩]] ∧
    tr.length = 20 ∧ (∃ tr', tr = .waitOk 0 1 [⟨42, true, false, ⟨IN⟩⟩] :: tr') := by
  have h1 : ((runActs exCfg (init exCfg) exRun).map fun r =>
      decide (outs r.2 = [.res .ok, .events [⟨42, true, false, ⟨IN⟩⟩]]) && decide (r.2.length = 20) &&
      match r.2 with
      | .waitOk t n l :: _ => decide ((t, n, l) = (0, 1, [⟨42, true, false, ⟨IN⟩⟩]))
      | _ => false) = some true := by decide +kernel
  obtain ⟨⟨s, tr⟩, h2, h3⟩ := Option.map_eq_some_iff.1 h1
  simp only [Bool.and_eq_true, decide_eq_true_eq] at h3
  refine ⟨s, tr, ?_, h3.1.1, h3.1.2, ?_⟩
  · have := reach_run (P := Any) .init exRun s tr (fun _ _ => trivial) h2
    simpa using this
  · have h5 := h3.2
    revert h5
    cases tr with
    | nil => simp
    | cons o tr => cases o <;> simp

end Polling.C34
