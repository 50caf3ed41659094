import Verif.Proof.ApiIocpCount
import Verif.Props.C54

/-! C54, IOCP. -/

namespace Polling.Api

/-- Every call in which the key was given was out of date when the last `wait` began. -/
def stale (past : List Obs) (key : Key) : Bool :=
  (splits past).all fun x => match x.2.1 with
    | .begin t (.set fd k _) => k != key || (splits x.1).any fun y => match y.2.1 with
      | .waitBegin => !y.1.contains .waitBegin && (splits y.2.2).any fun z => match z.2.1 with
        | .begin v call => call.fd == fd && (outcome t z.2.2).isSome && outcome v z.1 == some true
        | _ => false
      | _ => false
    | _ => true

theorem not_justified {strict : Prop} {past : List Obs} {key : Key} (h : stale past key = true) : ¬ Justified strict past key := by
  rintro ⟨l2, t, fd, o, l1, rfl, _, h2⟩
  have h3 := List.all_eq_true.mp h _ (mem_splits l2 _ l1)
  simp only [bne_self_eq_false, Bool.false_or] at h3
  obtain ⟨y, hy, h4⟩ := List.any_eq_true.mp h3
  have hs := splits_mem y hy
  obtain ⟨m2, o2, m1⟩ := y
  cases o2 with
  | waitBegin =>
    simp only [Bool.and_eq_true, Bool.not_eq_true', List.contains_eq_mem, decide_eq_false_iff_not] at h4
    obtain ⟨h5, h6⟩ := h4
    obtain ⟨z, hz, h7⟩ := List.any_eq_true.mp h6
    have hs2 := splits_mem z hz
    obtain ⟨n2, o3, n1⟩ := z
    cases o3 with
    | begin v call =>
      simp only [Bool.and_eq_true, beq_iff_eq, Option.isSome_iff_ne_none] at h7
      exact h2 m2 m1 hs h5 ⟨n2, v, call, n1, hs2, h7.1.1, h7.1.2, h7.2⟩
    | _ => cases h7
  | _ => cases h4

/-- The last observation is an event for which there is no reason. -/
def late : List Obs → Bool
  | .waitOk evs :: past => evs.any fun e => stale past e.key
  | _ => false

theorem not_conforms_late {strict : Prop} {tr : List Obs} (h : late tr = true) : ¬ Conforms strict tr := by
  intro hc
  cases tr with
  | nil => cases h
  | cons o past =>
    cases o with
    | waitOk evs =>
      obtain ⟨e, he, h⟩ := List.any_eq_true.mp h
      exact not_justified h (hc [] evs past rfl e he)
    | _ => cases h

end Polling.Api

namespace Polling.C54
open Api IocpM Iocp IocpSpec

/-- On IOCP, in every history of a program that uses neither waitable handles nor packets, in which calls for one source do not
overlap (calls for different sources may, and calls may overlap with `wait`): every event returned by `wait` has a key given in a
call that was not out of date when the `wait` began - whether or not that call failed.  The OS may fail at any point.
Missing: with overlapping calls it is false, see `iocp_overlap_does_not_conform`. -/
theorem iocp_conforms_partial (n : Nat) (P) (s : S) (tr : List IObs) (h : Reach n P s tr) (hport : IPortable tr) (hone : OneAtATime (ofIObs tr)) :
    Conforms False (ofIObs tr) := by
  rw [← erase_marksI]
  exact conforms_of_WF (reach_iinv (strict := False) (once := False) h nofun hport hone nofun).wf

/-- If the OS does not refuse the operations that registration calls start or cancel, the call did not fail.
Missing: otherwise it is false, see `iocp_does_not_conform`. -/
theorem iocp_conforms_strict_partial (n : Nat) (s : S) (tr : List IObs) (h : Reach n Starts s tr) (hport : IPortable tr)
    (hone : OneAtATime (ofIObs tr)) : Conforms True (ofIObs tr) := by
  rw [← erase_marksI]
  exact conforms_of_WF (reach_iinv (strict := True) (once := False) h (fun _ _ _ h => h) hport hone nofun).wf

/-- On IOCP, if only one-shot modes are used: readable events with a key are returned at most as often as the key was given - with
any interleaving of threads, overlapping calls included, and any failures. -/
theorem iocp_at_most_once (n : Nat) (P) (s : S) (tr : List IObs) (h : Reach n P s tr) (hport : IPortable tr) (ho : AllOneshot (ofIObs tr)) :
    AtMostOnce (ofIObs tr) := iocp_count h hport ho

/-- `IPortable`, as a program. -/
def portable (tr : List IObs) : Bool :=
  tr.all fun o => match o with | .begin _ call => (ofICall call).isSome | .posted _ _ => false | _ => true

theorem iPortable_of {tr : List IObs} (h : portable tr = true) : IPortable tr := by
  have h' := List.all_eq_true.mp h
  refine ⟨fun t call hm hn => ?_, fun p ev hm => ?_⟩
  · have := h' _ hm
    simp [hn] at this
  · have := h' _ hm
    cases this

/-- `OneAtATime`, as a program, if there are at most three threads. -/
def apart (tr : List Obs) : Bool :=
  (splits tr).all fun x => match x.2.1 with
    | .begin _ call => [0, 1, 2].all fun u => (calling x.2.2 u).all fun c => c.fd != call.fd
    | _ => true

/-- The threads of a history. -/
def under (n : Nat) (tr : List Obs) : Bool := tr.all fun o => match o with | .begin t _ => decide (t < n) | _ => true

theorem calling_under {n : Nat} {tr : List Obs} (h : under n tr = true) {u : Tid} {c : Api.Call} (hc : calling tr u = some c) : u < n := by
  induction tr with
  | nil => cases hc
  | cons o tr ih =>
    simp only [under, List.all_cons, Bool.and_eq_true] at h
    cases o with
    | begin t call =>
      simp only [calling] at hc
      split at hc
      · rename_i e; subst e; exact of_decide_eq_true h.1
      · exact ih h.2 hc
    | ret t ok =>
      simp only [calling] at hc
      split at hc
      · cases hc
      · exact ih h.2 hc
    | waitBegin => exact ih h.2 hc
    | waitOk => exact ih h.2 hc
    | waitErr => exact ih h.2 hc

theorem oneAtATime_of {tr : List Obs} (h : apart tr = true) (hu : under 3 tr = true) : OneAtATime tr := by
  intro later t call earlier he u c hc
  subst he
  have h1 := List.all_eq_true.mp h _ (mem_splits later _ earlier)
  simp only [under, List.all_append, List.all_cons, Bool.and_eq_true] at hu
  have h2 : u < 3 := calling_under hu.2.2 hc
  have h3 := List.all_eq_true.mp h1 u (by
    have : u = 0 ∨ u = 1 ∨ u = 2 := by omega
    rcases this with rfl | rfl | rfl <;> simp)
  dsimp only at h3
  rw [hc] at h3
  simpa using h3

/-- Two threads delete the same source: the first has taken it out of the table, but has not told the packet yet; the second finds
nothing and returns `Ok`.  A `wait` that begins afterwards starts the operation, and returns the event. -/
def exOverlap : List Act :=
  addActs 0 true 7 (Event.onlyReadable 5) .oneshot ++ [.call 1 (.delete true 7), .go 1 none, .call 2 (.delete true 7), .go 2 none] ++
    blockActs 1 4 ++ [.complete 1 (.ok 1 RECEIVE)] ++ takeActs

/-- False of the code if calls for one source overlap: a `wait` that began after a `delete` had returned returns its event. -/
theorem iocp_overlap_does_not_conform : ∃ s tr, Reach 3 Any s tr ∧ IPortable tr ∧ ¬ Conforms False (ofIObs tr) := by
  have h1 : ((runActs 3 IocpM.init exOverlap).map fun r => portable r.2 && late (ofIObs r.2)) = some true := by decide +kernel
  obtain ⟨⟨s, tr⟩, h2, hp⟩ := Option.map_eq_some_iff.1 h1
  simp only [Bool.and_eq_true] at hp
  exact ⟨s, tr, by have := run_reach (P := Any) .init (fun _ _ _ => trivial) h2; rwa [List.append_nil] at this, iPortable_of hp.1, not_conforms_late hp.2⟩

/-- `modify` while a `wait` blocks: the packet has the new key already when the OS refuses to cancel the operation. -/
def exRefused : List Act :=
  addActs 0 true 7 (Event.onlyReadable 5) .oneshot ++ blockActs 1 4 ++
    [.call 1 (.modify true 7 (Event.all 6) .oneshot), .go 1 none, .go 1 none, .go 1 none, .go 1 (some (.os 5)), .go 1 none] ++
    [.complete 1 (.ok 1 RECEIVE)] ++ takeActs

/-- False of the code if the OS refuses: an event with a key that was only given in a call that failed. -/
theorem iocp_does_not_conform : ∃ s tr, Reach 3 Any s tr ∧ IPortable tr ∧ OneAtATime (ofIObs tr) ∧ ¬ Conforms True (ofIObs tr) := by
  have h1 : ((runActs 3 IocpM.init exRefused).map fun r => portable r.2 && (apart (ofIObs r.2) && under 3 (ofIObs r.2)) && odd (ofIObs r.2)) = some true := by
    decide +kernel
  obtain ⟨⟨s, tr⟩, h2, hp⟩ := Option.map_eq_some_iff.1 h1
  simp only [Bool.and_eq_true] at hp
  obtain ⟨⟨h3, h4, h5⟩, h6⟩ := hp
  exact ⟨s, tr, by have := run_reach (P := Any) .init (fun _ _ _ => trivial) h2; rwa [List.append_nil] at this, iPortable_of h3,
    oneAtATime_of h4 h5, not_conforms h6⟩

/-- A thread blocks in `wait`, another changes the key; the event has the new one.  Then the source is deleted, and another one is
added and returned in the next `wait`. -/
example : (runActs 3 IocpM.init (addActs 0 true 7 (Event.onlyReadable 5) .oneshot ++ blockActs 1 4 ++
      [.call 1 (.modify true 7 (Event.onlyReadable 6) .oneshot), .go 1 none, .go 1 none, .go 1 none, .complete 1 (.ok 1 RECEIVE)] ++ takeActs ++
      delActs 1 true 7 ++ addActs 1 true 8 (Event.onlyReadable 9) .oneshot ++ blockActs 2 4 ++ [.complete 2 (.ok 1 RECEIVE)] ++ takeActs)).map
      (fun r => (portable r.2, apart (ofIObs r.2), ofIObs r.2)) =
    some (true, true, [.waitOk [⟨9, true, false⟩], .waitBegin, .ret 1 true, .begin 1 (.set 8 9 true), .ret 1 true, .begin 1 (.delete 7),
      .waitOk [⟨6, true, false⟩], .ret 1 true, .begin 1 (.set 7 6 true), .waitBegin, .ret 0 true, .begin 0 (.set 7 5 true)]) := by decide +kernel

end Polling.C54
