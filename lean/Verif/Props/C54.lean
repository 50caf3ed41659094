import Verif.Proof.ApiPoll
import Verif.Proof.ApiKq
import Verif.Proof.EpollRun
import Verif.Proof.KqRun
import Verif.Props.C02
import Verif.Props.C03Epoll
import Verif.Props.C15Epoll
import Verif.Props.PortCalls
import Verif.Props.PollDelivery
import Verif.Props.KqDelivery

/-!
C54: one contract for all backends, in terms of what a program that uses only the portable interface sees (`Spec/Api.lean`).
-/

namespace Polling.Api

/-! To show that a given trace does not conform. -/

/-- All ways to cut a list at an observation. -/
def splits : List Obs → List (List Obs × Obs × List Obs)
  | [] => []
  | o :: l => ([], o, l) :: (splits l).map fun x => (o :: x.1, x.2.1, x.2.2)

theorem mem_splits (l2 : List Obs) (o : Obs) (l1 : List Obs) : (l2, o, l1) ∈ splits (l2 ++ o :: l1) := by
  induction l2 with
  | nil => exact List.mem_cons_self
  | cons x l2 ih => exact List.mem_cons_of_mem _ (List.mem_map.mpr ⟨(l2, o, l1), ih, rfl⟩)

/-- The key was given in a call that did not fail. -/
def given (past : List Obs) (key : Key) : Bool :=
  (splits past).any fun x => match x.2.1 with
    | .begin t (.set _ k _) => k == key && outcome t x.1 != some false
    | _ => false

theorem given_of_justified {strict : Prop} (hs : strict) {past : List Obs} {key : Key} (h : Justified strict past key) : given past key = true := by
  obtain ⟨l2, t, fd, o, l1, rfl, h1, _⟩ := h
  exact List.any_eq_true.mpr ⟨_, mem_splits _ _ _, by simp [h1 hs]⟩

/-- Some event of the trace has a key that was not given in a call that did not fail. -/
def odd (tr : List Obs) : Bool :=
  (splits tr).any fun x => match x.2.1 with
    | .waitOk evs => evs.any fun e => !given x.2.2 e.key
    | _ => false

theorem splits_mem {tr : List Obs} : ∀ x ∈ splits tr, tr = x.1 ++ x.2.1 :: x.2.2 := by
  induction tr with
  | nil => intro x h; cases h
  | cons o tr ih =>
    intro x h
    rcases List.mem_cons.mp h with rfl | h
    · rfl
    · obtain ⟨y, hy, rfl⟩ := List.mem_map.mp h
      have := ih y hy
      simp only [List.cons_append]
      rw [← this]

theorem not_conforms {tr : List Obs} (h : odd tr = true) : ¬ Conforms True tr := by
  intro hc
  obtain ⟨x, hx, h⟩ := List.any_eq_true.mp h
  have hs := splits_mem x hx
  obtain ⟨l2, o, l1⟩ := x
  cases o with
  | waitOk evs =>
    obtain ⟨e, he, h⟩ := List.any_eq_true.mp h
    have := given_of_justified trivial (hc l2 evs l1 hs e he)
    rw [this] at h; cases h
  | _ => cases h

end Polling.Api

namespace Polling.C54
open Api

/-! epoll -/

section
open EpollM Epoll

theorem epoll_wf {c : Cfg} (hok : c.Ok) {s : S} {tr : List (Spec.Obs EventExtra)} (h : Reach c s tr) {once : Prop}
    (ho : once → AllOneshot (ofObs tr)) : WF [false] True once (marks tr) := by
  refine wf_marks (C03.epoll_right_key c hok s tr h) (fun hon => ⟨C15.epoll_oneshot c hok s tr h, ho hon⟩) ?_
  intro later n evs earlier he
  subst he
  have hsuf : ∃ s', Reach c s' (.waitOk n evs :: earlier) := by
    clear ho
    induction later generalizing s with
    | nil => exact ⟨s, h⟩
    | cons o later ih =>
      cases h with
      | step h' _ => exact ih h'
  obtain ⟨s', h'⟩ := hsuf
  obtain ⟨ds, h1, h2, _⟩ := C02.epoll_shows_exactly_the_delivered c hok s' earlier n evs h'
  exact ⟨ds, h1, h2 ▸ List.Sublist.refl _⟩

/-- On epoll, in every history with any interleaving of threads: every event returned by `wait` has a key given in a call that
succeeded and that was not out of date when the `wait` began. -/
theorem epoll_conforms (c : Cfg) (hok : c.Ok) (s : S) (tr : List (Spec.Obs EventExtra)) (h : Reach c s tr) : Conforms True (ofObs tr) := by
  rw [← erase_marks]
  exact conforms_of_WF (epoll_wf hok h (once := False) nofun)

/-- On epoll, if only one-shot modes are used: readable events with a key are returned at most as often as the key was given. -/
theorem epoll_at_most_once (c : Cfg) (hok : c.Ok) (s : S) (tr : List (Spec.Obs EventExtra)) (h : Reach c s tr) (ho : AllOneshot (ofObs tr)) :
    AtMostOnce (ofObs tr) := by
  rw [← erase_marks]
  exact atMostOnce_of_WF trivial (epoll_wf hok h (once := True) (fun _ => ho))

/-- Keys 11 and 12 are both requested and returned; then the source is deleted. -/
example : ((exTrace exCfg (fun _ => IN)
      ([.add 7 (Event.onlyReadable 11) .oneshot none] ++ waitActs 8 ++ [.modify 7 (Event.onlyReadable 12) .oneshot none] ++ waitActs 8 ++
       [.delete 7 none, .notifyCas, .notifyWrite] ++ waitActs 8)).map ofObs) =
    some [.waitOk [], .waitBegin, .ret 0 true, .begin 0 (.delete 7), .waitOk [⟨12, true, false⟩], .waitBegin, .ret 0 true, .begin 0 (.set 7 12 true),
      .waitOk [⟨11, true, false⟩], .waitBegin, .ret 0 true, .begin 0 (.set 7 11 true)] := by decide

end

/-! Event ports -/

section
open PortM Port

theorem port_wf {n : Nat} {P} {s : S} {tr : List (Spec.Obs EventExtra)} (h : Reach n P s tr) {once : Prop} (ho : once → AllOneshot (ofObs tr)) :
    WF [false] True once (marks tr) := by
  refine wf_marks (C03.port_right_key n P s tr h) (fun hon => ⟨C15.port_oneshot n P s tr h, ho hon⟩) ?_
  intro later k evs earlier he
  obtain ⟨s0, a, s1, h0, hp, hs⟩ := PortM.reach_split h _ _ _ he
  obtain ⟨ds, h1, h2, _⟩ := C03.port_shows_exactly_the_taken n P s1 earlier k evs (.step h0 hp hs)
  exact ⟨ds, h1, h2 ▸ List.Sublist.refl _⟩

/-- On event ports, in every history with any interleaving of threads and any failures. -/
theorem port_conforms (n : Nat) (P) (s : S) (tr : List (Spec.Obs EventExtra)) (h : Reach n P s tr) : Conforms True (ofObs tr) := by
  rw [← erase_marks]
  exact conforms_of_WF (port_wf h (once := False) nofun)

/-- Other modes are refused on event ports, so there is no condition. -/
theorem port_at_most_once (n : Nat) (P) (s : S) (tr : List (Spec.Obs EventExtra)) (h : Reach n P s tr) : AtMostOnce (ofObs tr) := by
  have ho : AllOneshot (ofObs tr) := by
    induction h with
    | init => intro t fd k o hm; cases hm
    | @step s tr a s' o hr hp hs ih =>
      intro t fd k b hm
      cases o with
      | reg fd' ev mode =>
        simp only [ofObs, List.mem_cons, reduceCtorEq, false_or, Obs.begin.injEq, Call.set.injEq] at hm
        rcases hm with ⟨_, _, _, rfl⟩ | hm
        · have := C15.port_always_oneshot n P s' _ (.step hr hp hs) fd' ⟨ev, mode, false⟩ (by simp [Spec.current])
          cases this; rfl
        · exact ih t fd k b hm
      | unreg fd' =>
        simp only [ofObs, List.mem_cons, reduceCtorEq, false_or, Obs.begin.injEq, and_false] at hm
        exact ih t fd k b hm
      | waitBegin => simp only [ofObs, List.mem_cons, reduceCtorEq, false_or] at hm; exact ih t fd k b hm
      | waitOk => simp only [ofObs, List.mem_cons, reduceCtorEq, false_or] at hm; exact ih t fd k b hm
      | waitErr => simp only [ofObs, List.mem_cons, reduceCtorEq, false_or] at hm; exact ih t fd k b hm
      | _ => exact ih t fd k b hm
  rw [← erase_marks]
  exact atMostOnce_of_WF trivial (port_wf h (once := True) (fun _ => ho))

/-- Two sources; one is deleted while ready, the other is modified. -/
example : ((exTrace (fun _ => PollFlags.IN) ([.add 7 (Event.onlyReadable 17) .oneshot none, .add 8 (Event.all 18) .oneshot none, .delete 7 none,
      .modify 8 (Event.onlyReadable 19) .oneshot none] ++ waitActs 5)).map ofObs) =
    some [.waitOk [⟨19, true, false⟩], .waitBegin, .ret 0 true, .begin 0 (.set 8 19 true), .ret 0 true, .begin 0 (.delete 7),
      .ret 0 true, .begin 0 (.set 8 18 true), .ret 0 true, .begin 0 (.set 7 17 true)] := by decide

end

/-! poll -/

section
open PollP PollB PollFlags PollSpec PollEx

/-- On poll, in every run in which no `modify` was rejected because of its mode.
Missing: with rejected `modify` calls it is false, see `poll_does_not_conform`. -/
theorem poll_conforms_partial {c : Cfg} {s : S} {tr : List PObs} (h : Reach c Any s tr) (hno : NoRejectedModify tr) : Conforms True (ofPObs tr) := by
  rw [← erase_marksP]
  exact conforms_of_WF (wf_poll (once := False) h hno (C03.poll_right_key_partial h hno) nofun)

/-- False of the code in general: the event has a key that was only given in a call that failed. -/
theorem poll_does_not_conform : ∃ s tr, Reach cfg Any s tr ∧ ¬ Conforms True (ofPObs tr) := by
  obtain ⟨s, tr, hr, hp⟩ := run_of (c := cfg) (acts := C03.exWrong) (p := fun tr => odd (ofPObs tr)) (by decide +kernel)
  exact ⟨s, tr, hr, not_conforms hp⟩

/-- poll(2) reports nothing of a descriptor nothing is asked about: no hang-ups, errors or invalid descriptors. -/
def Silent (os : Fd → Flags → Flags) : Prop := ∀ fd, os fd 0#16 = 0#16

/-- On poll, if only one-shot modes are used and there are no hang-ups.
Missing: a hang-up is returned again by every `wait`, see `poll_hangup_more_than_once`. -/
theorem poll_at_most_once_partial {c : Cfg} {s : S} {tr : List PObs} (h : Reach c (OsIs Silent) s tr) (hno : NoRejectedModify tr)
    (ho : AllOneshot (ofPObs tr)) : AtMostOnce (ofPObs tr) := by
  have hany : Reach c Any s tr := by
    clear hno ho
    induction h with
    | init => exact .init
    | step _ _ hs ih => exact .step ih trivial hs
  have h1 : Spec.EveryDelivery Spec.OneShot (history false tr) := by
    rw [← history_clean hno true]
    refine everyDelivery_of h ?_
    intro s t os order n l tr' hr _ fd cu hc ho
    have hb := batch_spec hr
    refine ⟨fun hf hm => ?_, List.nodup_iff_count.1 hb.nodup fd⟩
    obtain ⟨⟨fd', e⟩, hm0, rfl⟩ := List.mem_map.mp hm
    obtain ⟨hm', _⟩ := List.of_mem_zip hm0
    have hready := (List.mem_filter.mp hm').2
    have hask : asks cu = 0#16 := if_pos ⟨hf, ho⟩
    have hq := (reach_os hr).2 t os order n _ List.mem_cons_self fd'
    simp [readyNow, hc, hask, hq] at hready
  rw [← erase_marksP]
  exact atMostOnce_of_WF trivial (wf_poll (once := True) hany hno (C03.poll_right_key_partial hany hno) (fun _ => ⟨h1, ho⟩))

/-- False of the code (and of poll(2)) in general: requested once, returned twice. -/
theorem poll_hangup_more_than_once : ∃ s tr, Reach cfg Any s tr ∧ NoRejectedModify tr ∧ AllOneshot (ofPObs tr) ∧ ¬ AtMostOnce (ofPObs tr) := by
  obtain ⟨s, tr, hr, hp⟩ := run_of (c := cfg) (acts := C15.exHup) (p := fun tr =>
    (tr.all fun o => match o with | .applied _ (.modify _ _ _) (.err .unsupported) => false | _ => true) &&
    ((ofPObs tr).all fun o => match o with | .begin _ (.set _ _ o) => o | _ => true) &&
    decide (requested 70 (ofPObs tr) < returned 70 (ofPObs tr))) (by decide +kernel)
  simp only [Bool.and_eq_true, List.all_eq_true, decide_eq_true_eq] at hp
  obtain ⟨⟨h1, h2⟩, h3⟩ := hp
  refine ⟨s, tr, hr, ?_, ?_, fun h => by have := h 70; omega⟩
  · intro t fd ev mode hm; have := h1 _ hm; cases this
  · intro t fd k o hm; exact h2 _ hm

/-- Without hang-ups: delivered once, silent in the second `wait`, and delivered again after `modify`. -/
example : ((runActs cfg (PollP.init cfg) (callActs (.add 7 (Event.onlyReadable 70) .oneshot) ++ waitActs (os7 IN) [7] ++
      waitActs (os7 IN) [7] ++ callActs (.modify 7 (Event.onlyReadable 71) .oneshot) ++ waitActs (os7 IN) [7])).map fun r => ofPObs r.2) =
    some [.waitOk [⟨71, true, false⟩], .waitBegin, .ret 0 true, .begin 0 (.set 7 71 true), .waitOk [], .waitBegin,
      .waitOk [⟨70, true, false⟩], .waitBegin, .ret 0 true, .begin 0 (.set 7 70 true)] := by decide +kernel

end

/-! kqueue -/

section
open KqM Kqueue KqSpec

/-- On kqueue, in every history with any interleaving of threads, for programs that do not use the extension: every event returned
by `wait` has a key given in a call that was not out of date when the `wait` began - whether or not that call failed.  The OS
may refuse changes, but must mean it if it says that there is nothing to remove, or that a filter cannot be watched
(`Attach`). -/
theorem kqueue_conforms_partial (c : Cfg) (hok : c.Ok) (s : S) (tr : List KObs) (h : Reach c Attach s tr) (hport : KPortable tr) :
    Conforms False (ofKObs tr) := by
  rw [← erase_marksK]
  exact conforms_of_WF (reach_kinv (once := False) hok h (fun _ _ _ hp => ⟨hp, nofun⟩) hport nofun).wf

/-- If the OS accepts the changes of registration calls, the call did not fail.
Missing: a call that fails may have been carried out in part, see `kqueue_does_not_conform`. -/
theorem kqueue_conforms_strict_partial (c : Cfg) (hok : c.Ok) (s : S) (tr : List KObs) (h : Reach c Accept s tr) (hport : KPortable tr) :
    Conforms True (ofKObs tr) := by
  rw [← erase_marksK]
  exact conforms_of_WF (reach_kinv (strict := True) (once := False) hok h (fun _ _ _ hp => ⟨attach_of_accept hp, fun _ => hp⟩) hport nofun).wf

/-- On kqueue, if only one-shot modes are used: readable events with a key are returned at most as often as the key was given. -/
theorem kqueue_at_most_once (c : Cfg) (hok : c.Ok) (s : S) (tr : List KObs) (h : Reach c Attach s tr) (hport : KPortable tr)
    (ho : AllOneshot (ofKObs tr)) : AtMostOnce (ofKObs tr) := by
  rw [← erase_marksK]
  exact atMostOnce_of_WF trivial (reach_kinv (strict := False) (once := True) hok h (fun _ _ _ hp => ⟨hp, nofun⟩) hport (fun _ => ho)).wf

theorem run_with {c : Cfg} {P : S → Tid → Act → Prop} {q : Act → Bool} (hP : ∀ s t a, q a = true → P s t a) {s : S} {tr : List KObs}
    (h : Reach c P s tr) (acts : List (Tid × Act)) (ha : acts.all (fun x => q x.2) = true) :
    ∀ s' obs, runActs c s acts = some (s', obs) → Reach c P s' (obs ++ tr) := by
  induction acts generalizing s tr with
  | nil => intro s' obs hr; cases hr; exact h
  | cons ta acts ih =>
    intro s' obs hr
    obtain ⟨t, a⟩ := ta
    simp only [List.all_cons, Bool.and_eq_true] at ha
    simp only [runActs, Option.bind_eq_some_iff, Option.map_eq_some_iff] at hr
    obtain ⟨⟨s1, o⟩, h1, ⟨s2, obs2⟩, h2, h3⟩ := hr
    injection h3 with h3 h4
    subst h3 h4
    have := ih (.step h (hP s t a ha.1) h1) ha.2 s2 obs2 h2
    simpa using this

/-- The OS refuses to watch a descriptor for writing, so `add` fails; but it watches it for reading. -/
def exHalf : List (Tid × Act) :=
  by_ 0 [.call (.add 7 (Event.all 5) .oneshot), .src, .src, .change none, .change (some 22), .eval, .wait true 4, .kevent, .finish]

/-- False of the code in general: an event with a key that was only given in a call that failed. -/
theorem kqueue_does_not_conform : ∃ s tr, Reach C04.userCfg Attach s tr ∧ KPortable tr ∧ ¬ Conforms True (ofKObs tr) := by
  have h1 : ((runActs C04.userCfg (KqM.init C04.userCfg fun f => if f = .read 7 then some false else none) exHalf).map fun r =>
    (r.2.all fun o => match o with | .begin _ call => (ofKCall call).isSome | _ => true) && odd (ofKObs r.2)) = some true := by decide +kernel
  obtain ⟨⟨s, tr⟩, h2, hp⟩ := Option.map_eq_some_iff.1 h1
  simp only [Bool.and_eq_true, List.all_eq_true] at hp
  refine ⟨s, tr, ?_, ?_, not_conforms hp.2⟩
  · have := run_with (c := C04.userCfg) (P := Attach) (q := fun a => match a with | .change (some 2) | .change (some 32) => false | _ => true)
      (fun s t a hq => by
        unfold Attach
        split
        · refine ⟨?_, ?_⟩ <;> rintro rfl <;> cases hq
        · trivial) (.init _) exHalf (by decide) s tr h2
    simpa using this
  · intro t call hm hn
    have := hp.1 _ hm
    simp [hn] at this

/-- Two threads: the second modifies the source between the waits of the first, and its `add` of the same source fails. -/
example : ((C04.trace C04.userCfg (fun f => if f = .read 7 then some false else none)
    (by_ 0 [.call (.add 7 (Event.onlyReadable 5) .oneshot), .src, .src, .change none, .change none, .eval, .wait true 4, .kevent] ++
      by_ 1 [.call (.add 7 (Event.onlyReadable 9) .oneshot), .src, .call (.modify 7 (Event.all 6) .oneshot), .src, .change none] ++ by_ 0 [.finish] ++
      by_ 1 [.change none, .eval] ++ by_ 0 [.wait true 4, .kevent, .finish])).map ofKObs) =
    some [.waitOk [⟨6, true, false⟩], .waitBegin, .ret 1 true, .waitOk [⟨5, true, false⟩], .begin 1 (.set 7 6 true),
      .ret 1 false, .begin 1 (.set 7 9 true), .waitBegin, .ret 0 true, .begin 0 (.set 7 5 true)] := by decide +kernel

end

end Polling.C54
