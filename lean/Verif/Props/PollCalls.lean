import Verif.Props.PollDelivery
import Verif.Spec.Modes
import Verif.Model.Modes

/-!
C17, C18 and C24 for the poll backend: results and effects of the registration calls, in every run of any number of
threads.  (`.applied t op r`: the call `op` took effect with result `r`; it returns `r`, see `C34.poll_applied_once`.)
-/

namespace Polling.C18
open PollP PollB PollFlags PollSpec Spec PollEx

/-- The result of a call, given whether the source is registered. -/
def expected (registered : Bool) : Op → Res
  | .add _ _ mode =>
    if registered then .err .alreadyExists
    else if modeWorks PollB.supportsLevel PollB.supportsEdge mode then .ok else .err .unsupported
  | .modify _ _ mode =>
    if !registered then .err .notFound
    else if modeWorks PollB.supportsLevel PollB.supportsEdge mode then .ok else .err .unsupported
  | .delete _ => if registered then .ok else .err .notFound

/-- The source a call is about. -/
def source : Op → Fd
  | .add fd _ _ | .modify fd _ _ | .delete fd => fd

theorem applied_acceptable {c P s t op r tr} (h : Reach c P s (.applied t op r :: tr)) : c.n.hasFd (source op) = false := by
  have key : ∀ {s tr}, Reach c P s tr → ∀ t op, callOf (s.pc t) = .begun op → acceptable c.n op = true := by
    intro s tr h
    induction h with
    | init => intro t op h; cases h
    | @step s tr t a s' o hr hp hs ih =>
      have hn := (step_next hs).2
      intro u op hu
      by_cases e : u = t
      · subst e
        have hold := ih u
        cases hn
        case callBegin ha => simp [upd_self, callOf] at hu; subst hu; exact ha
        case callWrite h => exact hold op (by rw [h]; simpa [upd_self, callOf] using hu)
        case callWriteFail h => exact hold op (by rw [h]; simpa [upd_self, callOf] using hu)
        case callLock h _ => exact hold op (by rw [h]; simpa [upd_self, callOf] using hu)
        case callLockUnsent h _ => exact hold op (by rw [h]; simpa [upd_self, callOf] using hu)
        case callPop h => exact hold op (by rw [h]; simpa [upd_self, callOf] using hu)
        case notifyAtOnce | waitBusy => exact hold op hu
        case notifyCv | callCv => rw [wake_callOf, upd_self] at hu; cases hu
        all_goals simp [upd_self, callOf] at hu
      · refine ih u op ?_
        rcases next_other hn e with h | ⟨b, h1, h2⟩
        · rw [← h]; exact hu
        · rw [h2] at hu; cases hu
  cases h with
  | @step s0 _ t' a _ _ hr hp hs =>
    have hn := (step_next hs).2
    generalize ho : PObs.applied t op r = o at hn
    cases hn <;> cases ho
    next hp' _ =>
    have := key hr t op (by rw [hp']; rfl)
    cases op <;> simp_all [acceptable, source]

/-- In every run: `add` fails with AlreadyExists exactly if the source is registered, `modify` and `delete` fail with
NotFound exactly if it is not; otherwise they succeed if the mode is supported. -/
theorem poll_results {c s t op r tr} (h : Reach c Any s (.applied t op r :: tr)) :
    r = expected (current (history true tr) (source op)).isSome op := by
  obtain ⟨s', h'⟩ := reach_tail h
  have hacc := applied_acceptable h
  obtain ⟨h1, _⟩ := applied_spec h
  have hm := reach_match h' (source op)
  have hsome : (current (history true tr) (source op)).isSome = (mapOf c tr (source op)).isSome := by
    rcases hm with ⟨h1, h2⟩ | ⟨_, _, h1, h2, _⟩ <;> rw [h1, h2] <;> rfl
  rw [hsome, h1]
  cases op with
  | add fd ev mode =>
    simp only [source] at hacc ⊢
    simp only [applyAsCoded, apply, hacc, expected]
    cases (mapOf c tr fd) <;> cases mode <;> simp [supported, modeWorks, PollB.supportsLevel, PollB.supportsEdge]
  | modify fd ev mode =>
    simp only [source] at hacc ⊢
    simp only [applyAsCoded, hacc, expected]
    cases (mapOf c tr fd) <;> cases mode <;> simp [supported, modeWorks, PollB.supportsLevel, PollB.supportsEdge]
  | delete fd =>
    simp only [source] at hacc ⊢
    simp only [applyAsCoded, apply, hacc, expected]
    cases (mapOf c tr fd) <;> simp

/-- A failing call changes nothing in the poller's table, except a `modify` whose mode is not supported (that one is
the subject of `C17.poll_failed_modify_changes_registration`). -/
theorem poll_failure_changes_nothing_partial {c s s' t op e} (hs : step c s t .callApply = some (s', .applied t op (.err e)))
    (hm : ∀ fd ev mode, op = .modify fd ev mode → modeWorks PollB.supportsLevel PollB.supportsEdge mode = true ∨
      s.tbl.fdData fd = none) : s'.tbl = s.tbl ∧ s'.notified = s.notified ∧ s'.libNotified = s.libNotified := by
  have hn := (step_next hs).2
  generalize ho : PObs.applied t op (.err e) = o at hn
  cases hn <;> cases ho
  next tbl hp hc =>
  refine ⟨?_, rfl, rfl⟩
  show tbl = s.tbl
  cases op with
  | add fd ev mode =>
    simp only [call, PollB.add] at hc
    repeat' split at hc
    all_goals (simp only [Option.some.injEq, Prod.mk.injEq] at hc; first | exact hc.2.symm | cases hc.1)
  | modify fd ev mode =>
    simp only [call, PollB.modify] at hc
    rcases hm fd ev mode rfl with hm | hm
    · have : ∃ b, cvtModeAsRemove mode = .ok b := by
        cases mode <;> first | exact ⟨_, rfl⟩ | cases hm
      obtain ⟨b, hb⟩ := this
      simp only [hb] at hc
      repeat' split at hc
      all_goals first
        | (cases hc; done)
        | (simp only [Option.some.injEq, Prod.mk.injEq] at hc; first | exact hc.2.symm | cases hc.1)
    · simp only [hm] at hc
      split at hc <;> (simp only [Option.some.injEq, Prod.mk.injEq] at hc; exact hc.2.symm)
  | delete fd =>
    simp only [call, PollB.delete] at hc
    repeat' split at hc
    all_goals first
      | (cases hc; done)
      | (simp only [Option.some.injEq, Prod.mk.injEq] at hc; first | exact hc.2.symm | cases hc.1)

/-- Double add, unknown modify, unknown delete. -/
example : ((runActs cfg (PollP.init cfg) (callActs (.add 7 (Event.all 1) .level) ++ callActs (.add 7 (Event.all 2) .oneshot) ++
      callActs (.modify 8 (Event.all 3) .oneshot) ++ callActs (.delete 8) ++ callActs (.delete 7) ++ callActs (.delete 7))).map
      fun r => outs r.2) =
    some [.res .ok, .res (.err .alreadyExists), .res (.err .notFound), .res (.err .notFound), .res .ok, .res (.err .notFound)] := by
  decide +kernel

end Polling.C18

namespace Polling.C17
open PollP PollB PollFlags PollSpec Spec PollEx

/-- In every run of the poll backend a call is rejected as unsupported exactly if its mode is one that
`supports_level`/`supports_edge` excludes (and the call is not already wrong for another reason). -/
theorem poll_rejects_exactly {c s t op r tr} (h : Reach c Any s (.applied t op r :: tr)) :
    r = .err .unsupported ↔ ∃ fd ev mode, modeWorks PollB.supportsLevel PollB.supportsEdge mode = false ∧
      ((op = .add fd ev mode ∧ current (history true tr) fd = none) ∨
       (op = .modify fd ev mode ∧ (current (history true tr) fd).isSome = true)) := by
  have hr := C18.poll_results h
  cases op with
  | add fd ev mode =>
    simp only [C18.source, C18.expected] at hr
    cases hc : (current (history true tr) fd).isSome <;> cases hm : modeWorks PollB.supportsLevel PollB.supportsEdge mode <;>
      simp only [hc, hm, Bool.false_eq_true, if_false, if_true] at hr <;> subst hr <;>
      simp only [true_iff, reduceCtorEq, false_iff, Res.err.injEq]
    · exact ⟨fd, ev, mode, hm, .inl ⟨rfl, by simpa using hc⟩⟩
    all_goals
      rintro ⟨fd', ev', mode', h1, ⟨h2, h3⟩ | ⟨h2, _⟩⟩
      · injection h2 with h2 _ h4; subst h2 h4; simp_all
      · cases h2
  | modify fd ev mode =>
    simp only [C18.source, C18.expected] at hr
    cases hc : (current (history true tr) fd).isSome <;> cases hm : modeWorks PollB.supportsLevel PollB.supportsEdge mode <;>
      simp only [hc, hm, Bool.not_false, Bool.not_true, Bool.false_eq_true, if_false, if_true] at hr <;> subst hr <;>
      simp only [true_iff, reduceCtorEq, false_iff, Res.err.injEq]
    rotate_left 2
    · exact ⟨fd, ev, mode, hm, .inr ⟨rfl, hc⟩⟩
    all_goals
      rintro ⟨fd', ev', mode', h1, ⟨h2, _⟩ | ⟨h2, h3⟩⟩
      · cases h2
      · injection h2 with h2 _ h4; subst h2 h4; simp_all
  | delete fd =>
    simp only [C18.source, C18.expected] at hr
    cases hc : (current (history true tr) fd).isSome <;> simp only [hc, Bool.false_eq_true, if_false, if_true] at hr <;> subst hr <;>
      simp

/-- A rejected `add` leaves the table unchanged. -/
theorem poll_rejected_add_changes_nothing {c s s' t fd ev mode e}
    (hs : step c s t .callApply = some (s', .applied t (.add fd ev mode) (.err e))) : s'.tbl = s.tbl :=
  (C18.poll_failure_changes_nothing_partial hs (by intro _ _ _ h; cases h)).1

/-- False of the code: a `modify` rejected because of its mode does change the registration.  Here descriptor 7 was
registered for reading with key 70; after the rejected `modify` it is reported as writable, with key 71. -/
theorem poll_failed_modify_changes_registration : ∃ s tr, Reach cfg Any s tr ∧
    outs tr = [.res .ok, .res (.err .unsupported), .events [⟨71, false, true, ⟨OUT⟩⟩]] ∧
    steps tr = [.call (.add 7 (Event.onlyReadable 70) .level), .call (.modify 7 (Event.onlyWritable 71) .edge),
      .round (os7 OUT) [7] false] := by
  let acts := callActs (.add 7 (Event.onlyReadable 70) .level) ++ callActs (.modify 7 (Event.onlyWritable 71) .edge) ++
    waitActs (os7 OUT) [7]
  have h1 : (runActs cfg (PollP.init cfg) acts).map (fun r => steps r.2) =
    some [.call (.add 7 (Event.onlyReadable 70) .level), .call (.modify 7 (Event.onlyWritable 71) .edge),
      .round (os7 OUT) [7] false] := rfl
  obtain ⟨⟨s2, tr2⟩, h2, h3⟩ := Option.map_eq_some_iff.1 h1
  have h4 : ((runActs cfg (PollP.init cfg) acts).map fun r =>
    decide (outs r.2 = [.res .ok, .res (.err .unsupported), .events [⟨71, false, true, ⟨OUT⟩⟩]])) = some true := by decide +kernel
  rw [h2] at h4
  have h5 := reach_run (P := Any) .init acts s2 tr2 (fun _ _ => trivial) h2
  exact ⟨s2, tr2, by simpa using h5, by simpa using h4, h3⟩

end Polling.C17

namespace Polling.C24
open PollP PollB PollFlags PollSpec Spec PollEx

/-- An `add` that fails leaves the source as it was: a later `add` of a source that was not registered is not refused as
a duplicate.  (poll(2) itself has no reason to refuse a source: the only failures are the duplicate and the mode.) -/
theorem poll_failed_add {c s t u fd ev ev2 mode mode2 e r tr mid}
    (h : Reach c Any s (.applied u (.add fd ev2 mode2) r :: (mid ++ .applied t (.add fd ev mode) (.err e) :: tr)))
    (hmid : ∀ o ∈ mid, ∀ t op r, o ≠ .applied t op r) (hfree : current (history true tr) fd = none)
    (hmode : modeWorks PollB.supportsLevel PollB.supportsEdge mode2 = true) : r = .ok := by
  have hr := C18.poll_results h
  have hcur : current (history true (mid ++ .applied t (.add fd ev mode) (.err e) :: tr)) fd = none := by
    clear hr h
    induction mid with
    | nil => exact hfree
    | cons o mid ih =>
      have ih := ih fun o ho => hmid o (List.mem_cons_of_mem _ ho)
      have ho := hmid o List.mem_cons_self
      cases o
      case applied t op r => exact absurd rfl (ho t op r)
      case round t os order n out =>
        cases out
        case events l => simp only [List.cons_append, history, current, ih, Option.map_none]
        all_goals exact ih
      all_goals exact ih
  simp only [C18.source, hcur, C18.expected] at hr
  simpa [hmode] using hr

example : ((runActs cfg (PollP.init cfg) (callActs (.add 7 (Event.all 1) .edge) ++ callActs (.add 7 (Event.all 2) .oneshot))).map
      fun r => outs r.2) = some [.res (.err .unsupported), .res .ok] := by decide +kernel

end Polling.C24
