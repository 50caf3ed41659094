import Verif.Props.KqCalls
import Verif.Props.KqDelivery

/-! C53: the extension filters of the `kqueue` backend: signals, processes, timers. -/

namespace Polling.C53
open KqM Kqueue KqSpec

/-- The calls that register the filter, with key and mode. -/
def registers (x : Ext) : Call → Option (Key × PollMode)
  | .addFilter y key mode | .modifyFilter y key mode => if y = x then some (key, mode) else none
  | _ => none

theorem not_internal (c : Cfg) (x : Ext) : c.internal (extFilter x) = false := by
  unfold Cfg.internal
  cases x <;> split <;> rfl

theorem begun_of_calling {call : Call} {t : Tid} : ∀ {tr : List KObs}, calling tr t = some call → .begin t call ∈ tr := by
  intro tr
  induction tr with
  | nil => nofun
  | cons o tr ih =>
    intro h
    cases o with
    | begin u c' =>
      simp only [calling] at h
      split at h
      · next e => cases h; subst e; exact List.mem_cons_self
      · exact List.mem_cons_of_mem _ (ih h)
    | ret u c' r =>
      simp only [calling] at h
      split at h
      · cases h
      · exact List.mem_cons_of_mem _ (ih h)
    | _ => exact List.mem_cons_of_mem _ (ih h)

theorem wants_ext {call : Call} {x : Ext} {k : Key} {m : PollMode} (h : wants call (extFilter x) = some (some (k, m))) :
    registers x call = some (k, m) := by
  have hinj : ∀ y, extFilter x = extFilter y → y = x := by
    intro y e; cases x <;> cases y <;> cases e <;> rfl
  cases call with
  | add fd ev mode => cases x <;> cases h
  | modify fd ev mode => cases x <;> cases h
  | delete fd => cases x <;> cases h
  | addFilter y key mode =>
    simp only [wants] at h
    split at h
    · next e => cases h; simp only [registers, hinj y e, if_true]
    · cases h
  | modifyFilter y key mode =>
    simp only [wants] at h
    split at h
    · next e => cases h; simp only [registers, hinj y e, if_true]
    · cases h
  | deleteFilter y =>
    simp only [wants] at h
    split at h <;> cases h

theorem lastArm_mem {f : Filter} {k : BitVec 64} {o cl : Bool} : ∀ {tr : List KObs}, lastArm tr f = some (k, o, cl) →
    ∃ t, .armed t f k o cl ∈ tr := by
  intro tr
  induction tr with
  | nil => nofun
  | cons ob tr ih =>
    intro h
    have next : lastArm tr f = some (k, o, cl) → ∃ t, .armed t f k o cl ∈ ob :: tr := fun h' =>
      let ⟨t, ht⟩ := ih h'; ⟨t, List.mem_cons_of_mem _ ht⟩
    cases ob with
    | armed t g key o' cl' =>
      simp only [lastArm] at h
      split at h
      · next e => cases h; subst e; exact ⟨t, List.mem_cons_self⟩
      · exact next h
    | disarmed t g =>
      simp only [lastArm] at h
      split at h
      · cases h
      · exact next h
    | _ => exact next h

/-- The OS watches a filter only because a call registered it. -/
theorem armed_by_call {c : Cfg} {P} {s : S} {tr : List KObs} (h : Reach c P s tr) {x : Ext} {t : Tid} {key : BitVec 64} {o cl : Bool}
    (ha : .armed t (extFilter x) key o cl ∈ tr) :
    ∃ call k m, .begin t call ∈ tr ∧ registers x call = some (k, m) ∧ key = keyToU64 k ∧ o = oneshotMode m := by
  obtain ⟨later, earlier, he⟩ := List.append_of_mem ha
  obtain ⟨call, k, m, h1, h2, h3, h4, -⟩ := C03.kqueue_key_is_registered c P s tr later earlier h t _ key o cl he (not_internal c x)
  refine ⟨call, k, m, ?_, wants_ext h2, h3, h4⟩
  rw [he]
  exact List.mem_append_right _ (List.mem_cons_of_mem _ (begun_of_calling h1))

/-- An event of a filter says that it is readable and not writable, with a key given in a call that registered the filter. -/
theorem filter_event (c : Cfg) (P) (s : S) (tr : List KObs) (h : Reach c P s tr) (x : Ext) (t : Tid) (evs : List KEvent) (e : KEvent)
    (hd : .deliver t evs ∈ tr) (he : e ∈ evs) (hf : e.filter = extFilter x) :
    ∃ u call key mode, .begin u call ∈ tr ∧ registers x call = some (key, mode) ∧
      (toEvent e).key = key ∧ (toEvent e).readable = true ∧ (toEvent e).writable = false := by
  obtain ⟨later, earlier, heq⟩ := List.append_of_mem hd
  obtain ⟨o, cl, hl⟩ := C03.kqueue_right_key c P s tr h later t evs earlier heq e he
  rw [hf] at hl
  obtain ⟨u, hu⟩ := lastArm_mem hl
  have hmem : .armed u (extFilter x) e.udata o cl ∈ tr := by
    rw [heq]; exact List.mem_append_right _ (List.mem_cons_of_mem _ hu)
  obtain ⟨call, k, m, h1, h2, h3, -⟩ := armed_by_call h hmem
  obtain ⟨hr, hw, hk⟩ := C21.kqueue_event_iff e
  refine ⟨u, call, k, m, h1, h2, hk k h3, hr.mpr ?_, ?_⟩
  · rw [hf]
    cases x with
    | signal n => exact .inr (.inr (.inr (.inl ⟨n, rfl⟩)))
    | process p => exact .inr (.inr (.inl ⟨p, rfl⟩))
    | timer i => exact .inr (.inr (.inr (.inr ⟨i, rfl⟩)))
  · rw [Bool.eq_false_iff]
    intro hw'
    rcases hw.mp hw' with ⟨fd, h5⟩ | ⟨⟨fd, h5⟩, -⟩ <;> rw [hf] at h5 <;> cases x <;> cases h5

theorem watch_oneshot {keep : Filter → Bool} {f : Filter} : ∀ {tr : List KObs} {w : Watch},
    (∀ t key o cl, .armed t f key o cl ∈ tr → o = true) → watch keep tr f = some w → w.oneshot = true := by
  intro tr
  induction tr with
  | nil => nofun
  | cons o tr ih =>
    intro w ha h
    have ha' : ∀ t key o cl, .armed t f key o cl ∈ tr → o = true := fun t key o cl hm => ha t key o cl (List.mem_cons_of_mem _ hm)
    cases o with
    | armed t g key o cl =>
      simp only [watch] at h
      split at h
      · next e =>
        subst e
        have ho := ha t key o cl List.mem_cons_self
        split at h
        · next w0 hw =>
          split at h
          · cases h; exact ih (w := w0) ha' hw
          · cases h; exact ho
        · cases h; exact ho
      · exact ih ha' h
    | disarmed t g =>
      simp only [watch] at h
      split at h
      · cases h
      · exact ih ha' h
    | deliver t evs =>
      simp only [watch, Option.map_eq_some_iff] at h
      obtain ⟨w0, h1, h2⟩ := h
      have := ih ha' h1
      subst h2
      split <;> exact this
    | _ => exact ih ha' h

/-- A filter that is only ever registered in one-shot modes is delivered once per registration, on every kernel: between two
deliveries the OS accepted a change of it.  The documentation of `Signal` (os/kqueue.rs:146-147) promises this of signals for all
modes; that is missing, and false: see `signal_repeats`. -/
theorem signal_oneshot_partial (c : Cfg) (P) (s : S) (l3 l2 l1 : List KObs) (t1 t2 : Tid) (evs1 evs2 : List KEvent) (x : Ext)
    (h : Reach c P s (l3 ++ .deliver t2 evs2 :: (l2 ++ .deliver t1 evs1 :: l1)))
    (hm : ∀ t call key mode, .begin t call ∈ l1 → registers x call = some (key, mode) → oneshotMode mode = true)
    (h1 : extFilter x ∈ evs1.map KEvent.filter) (h2 : extFilter x ∈ evs2.map KEvent.filter) :
    ∃ o ∈ l2, arms (extFilter x) o = true := by
  obtain ⟨s1, t', a, s', hr, _, hs⟩ := reach_split h (l3 ++ .deliver t2 evs2 :: l2) (.deliver t1 evs1) l1 (by simp)
  have h1' := h1
  rw [List.mem_map] at h1'
  obtain ⟨e, he, hef⟩ := h1'
  obtain ⟨w, hw, -⟩ := delivered hr hs he
  rw [hef] at hw
  refine C15.kqueue_delivered_once c P s l3 l2 l1 t1 t2 evs1 evs2 _ w h h1 h2 hw (watch_oneshot ?_ hw)
  intro t key o cl ha
  obtain ⟨call, k, m, hb, hreg, -, ho⟩ := armed_by_call hr ha
  rw [ho]; exact hm t call k m hb hreg

/-- A kernel on which signals and timers always have `EV_CLEAR`. -/
def kernel : Cfg := { C04.userCfg with autoClear := fun f => match f with | .signal _ | .timer _ => true | _ => false }

/-- The code uses the mode it is given (os/kqueue.rs:110): a signal registered in level mode is delivered again and again. -/
theorem signal_repeats : ∃ (s : S) (tr : List KObs), Reach kernel Honest s tr ∧ tr =
    [.waitOk 0 1 [⟨5, true, false, ⟨⟩⟩], .deliver 0 [{ filter := .signal 10, flags := { clear := true }, udata := 5#64 }], .tau, .waitBegin 0,
     .waitOk 0 1 [⟨5, true, false, ⟨⟩⟩], .deliver 0 [{ filter := .signal 10, flags := { clear := true }, udata := 5#64 }], .tau, .waitBegin 0,
     .ret 0 (.addFilter (.signal 10) 5 .level) (.res .ok), .armed 0 (.signal 10) 5#64 false false, .tau, .inserted 0 (.signal 10),
     .begin 0 (.addFilter (.signal 10) 5 .level)] := by
  have hr : ((runActs kernel (init kernel fun _ => none)
      (by_ 0 [.call (.addFilter (.signal 10) 5 .level), .src, .src, .change none, .eval,
        .wait false 4, .cond (.signal 10) (some false), .kevent, .finish,
        .wait false 4, .cond (.signal 10) (some false), .kevent, .finish])).map fun r => r.2) =
    some [.waitOk 0 1 [⟨5, true, false, ⟨⟩⟩], .deliver 0 [{ filter := .signal 10, flags := { clear := true }, udata := 5#64 }], .tau, .waitBegin 0,
     .waitOk 0 1 [⟨5, true, false, ⟨⟩⟩], .deliver 0 [{ filter := .signal 10, flags := { clear := true }, udata := 5#64 }], .tau, .waitBegin 0,
     .ret 0 (.addFilter (.signal 10) 5 .level) (.res .ok), .armed 0 (.signal 10) 5#64 false false, .tau, .inserted 0 (.signal 10),
     .begin 0 (.addFilter (.signal 10) 5 .level)] := by
    decide +kernel
  rw [Option.map_eq_some_iff] at hr
  obtain ⟨⟨s, o⟩, hr, he⟩ := hr
  dsimp only at he
  subst he
  have hreach := reach_runP (P := Honest) honest_of (.init _) _ (by decide) s _ hr
  rw [List.append_nil] at hreach
  exact ⟨s, _, hreach, rfl⟩

/-- In one-shot mode the second signal is not delivered, until `modify_filter`. -/
example : (C04.trace kernel (fun _ => none)
    (by_ 0 [.call (.addFilter (.signal 10) 5 .oneshot), .src, .src, .change none, .eval,
      .wait true 4, .cond (.signal 10) (some false), .kevent, .finish, .wait true 4, .cond (.signal 10) (some false), .kevent, .finish,
      .call (.modifyFilter (.signal 10) 6 .oneshot), .src, .change none, .eval,
      .wait true 4, .cond (.signal 10) (some false), .kevent, .finish])).map
      (fun tr => tr.filterMap fun o => match o with | .waitOk _ _ evs => some (evs.map (·.key)) | _ => none) =
    some [[6], [], [5]] := by decide +kernel

end Polling.C53
