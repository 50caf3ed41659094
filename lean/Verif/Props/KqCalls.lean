import Verif.Proof.KqCalls
import Verif.Proof.KqRun
import Verif.Props.C03Epoll
import Verif.Props.KqNotify
import Verif.Model.Modes
import Verif.Spec.Modes

/-! Registration calls on kqueue: C17, C18, C21, C23, C24, C40. -/

namespace Polling.KqM
open Kqueue KqSpec

/-- The call returned without an error: what it submitted, and with which results. -/
theorem ret_ok {c s tr} (h : Reach c Honest s tr) {t a s' u call} (hs : step c s t a = some (s', .ret u call (.res .ok))) :
    u = t ∧ ∃ errs, (changes call).length = errs.length ∧ submitResult (List.zipWith receipt (changes call) errs) = .ok ∧
      changeLog tr t = List.zipWith (changeObs t) (changes call) errs ∧ Done c tr t (changes call) errs := by
  have heff := reach_effOk h t
  have hn := (step_next hs).2
  generalize ho : KObs.ret u call (.res .ok) = o at hn
  cases hn with
  | finCall hf hd =>
    injection ho with h1 h2 h3
    subst h1 h2
    injection h3 with h3
    obtain ⟨done, hp, hok, _⟩ := hf.ok h3.symm
    rw [hp] at heff
    obtain ⟨pre, errs, g1, g2, g3, g4, g5⟩ := heff
    rw [List.append_nil] at g1
    subst g1
    exact ⟨rfl, errs, g2, g3 ▸ hok, g4, g5⟩
  | ended hp =>
    injection ho with h1 h2 h3
    subst h1 h2
    rw [hp] at heff
    exact ⟨rfl, heff⟩
  | change => unfold changeObs at ho; split at ho; cases ho; split at ho <;> cases ho
  | _ => cases ho

theorem submitResult_errs : ∀ (pre : List KEvent) (errs : List Nat), pre.length = errs.length →
    submitResult (List.zipWith receipt pre errs) =
      match errs.find? fun e => e != 0 && serious e with
      | some e => .err (.os e)
      | none => .ok := by
  intro pre
  induction pre with
  | nil => intro errs h; cases errs with
    | nil => rfl
    | cons => cases h
  | cons ev pre ih =>
    intro errs h
    cases errs with
    | nil => cases h
    | cons e errs =>
      simp only [List.length_cons, Nat.add_right_cancel_iff] at h
      simp only [List.zipWith_cons_cons, submitResult, List.find?_cons]
      have hcond : ((receipt ev e).flags.error && (receipt ev e).data != 0 && (receipt ev e).data != ENOENT && (receipt ev e).data != EPIPE)
          = (e != 0 && serious e) := by
        unfold receipt serious ENOENT EPIPE
        rw [Bool.eq_iff_iff]
        simp
        omega
      rw [hcond]
      cases hc : (e != 0 && serious e) with
      | true => simp [receipt]
      | false => simp only [Bool.false_eq_true, if_false]; exact ih errs h

theorem zip_mem {pre : List KEvent} {errs : List Nat} (h : pre.length = errs.length) {ev : KEvent} (he : ev ∈ pre) :
    ∃ e, (ev, e) ∈ pre.zip errs := by
  induction pre generalizing errs with
  | nil => cases he
  | cons x pre ih =>
    cases errs with
    | nil => cases h
    | cons e errs =>
      simp only [List.length_cons, Nat.add_right_cancel_iff] at h
      rcases List.mem_cons.1 he with rfl | he
      · exact ⟨e, by simp⟩
      · obtain ⟨e', h'⟩ := ih h he
        exact ⟨e', by simp [h']⟩

theorem zipWith_mem {pre : List KEvent} {errs : List Nat} {ev : KEvent} {e : Nat} (h : (ev, e) ∈ pre.zip errs) (t : Tid) :
    changeObs t ev e ∈ List.zipWith (changeObs t) pre errs := by
  rw [← List.map_uncurry_zip_eq_zipWith]
  exact List.mem_map.2 ⟨(ev, e), h, rfl⟩

/-- The changes of a call are what it asks for. -/
theorem wants_change {call : Call} {f : Filter} {want} (h : wants call f = some want) :
    ∃ ev ∈ changes call, ev.filter = f ∧ (want = none → ev.flags.add = false) ∧
      ∀ k m, want = some (k, m) → ev.flags.add = true ∧ ev.udata = keyToU64 k ∧ ev.flags.oneshot = oneshotMode m ∧
        ev.flags.clear = edgeMode m := by
  have chg : ∀ (b : Bool) (key : Key) (mode : PollMode) (want : Option (Key × PollMode)), want = (if b then some (key, mode) else none) →
      (want = none → (changeFlags b mode).add = false) ∧ ∀ k m, want = some (k, m) → (changeFlags b mode).add = true ∧
        keyToU64 key = keyToU64 k ∧ (changeFlags b mode).oneshot = oneshotMode m ∧ (changeFlags b mode).clear = edgeMode m := by
    intro b key mode want hw
    subst hw
    cases b <;> cases mode <;> simp [changeFlags, modeToFlags, oneshotMode, edgeMode] <;>
      (rintro k m rfl rfl; simp [oneshotMode, edgeMode])
  cases call with
  | add fd ev mode =>
    simp only [wants] at h
    split at h
    · next e => injection h with h; exact ⟨_, .head _, e.symm, chg _ _ _ _ h.symm⟩
    · split at h
      · next e => injection h with h; exact ⟨_, .tail _ (.head _), e.symm, chg _ _ _ _ h.symm⟩
      · cases h
  | modify fd ev mode =>
    simp only [wants] at h
    split at h
    · next e => injection h with h; exact ⟨_, .head _, e.symm, chg _ _ _ _ h.symm⟩
    · split at h
      · next e => injection h with h; exact ⟨_, .tail _ (.head _), e.symm, chg _ _ _ _ h.symm⟩
      · cases h
  | delete fd =>
    simp only [wants] at h
    split at h
    · next e =>
      injection h with h
      subst h
      rcases e with e | e
      · exact ⟨_, .head _, e.symm, fun _ => rfl, fun k m h => by cases h⟩
      · exact ⟨_, .tail _ (.head _), e.symm, fun _ => rfl, fun k m h => by cases h⟩
    · cases h
  | addFilter x key mode =>
    simp only [wants] at h
    split at h
    · next e =>
      injection h with h
      refine ⟨_, .head _, ?_, chg true key mode want h.symm⟩
      rw [e]; cases x <;> rfl
    · cases h
  | modifyFilter x key mode =>
    simp only [wants] at h
    split at h
    · next e =>
      injection h with h
      refine ⟨_, .head _, ?_, chg true key mode want h.symm⟩
      rw [e]; cases x <;> rfl
    · cases h
  | deleteFilter x =>
    simp only [wants] at h
    split at h
    · next e =>
      injection h with h
      subst h
      refine ⟨_, .head _, ?_, fun _ => rfl, fun k m h => by cases h⟩
      rw [e]; cases x <;> rfl
    · cases h

end Polling.KqM

namespace Polling.C21
open KqM Kqueue KqSpec

/-- After a registration call that returned `Ok` the kernel watches each filter the call is about as the call asks (and
until another thread changes it): not at all, or with the requested key and mode.
Exceptions: if the kernel refused to watch the filter with EPIPE (which the code takes for success, kqueue.rs:159-170) it
is not watched; and on a kernel that does not change the mode of a watched filter, the mode may be the old one
(`kqueue_mode_kept`). -/
theorem kqueue_call_takes_effect (c : Cfg) (s : S) (tr : List KObs) (t : Tid) (call : Call)
    (h : Reach c Honest s (.ret t call (.res .ok) :: tr)) (f : Filter) (want : Option (Key × PollMode))
    (hw : wants call f = some want) (hu : undisturbed tr t f = true) :
    (want = none → ∀ w, watch c.keepMode tr f = some w → w.gone = true) ∧
    (∀ k m, want = some (k, m) →
      (∃ w, watch c.keepMode tr f = some w ∧ w.key = keyToU64 k ∧
        (c.keepMode f = false → w.oneshot = oneshotMode m ∧ w.clear = edgeMode m)) ∨
      .refused t f EPIPE ∈ changeLog tr t) := by
  obtain ⟨s0, t', a, s1, hr, _, hs⟩ := reach_split h [] _ tr rfl
  obtain ⟨rfl, errs, h1, h2, h3, h4⟩ := ret_ok hr hs
  obtain ⟨ev, he, rfl, g1, g2⟩ := wants_change hw
  obtain ⟨e, hz⟩ := zip_mem h1 he
  have heff := h4 ev e hz hu
  have herr : e = 0 ∨ e = ENOENT ∨ e = EPIPE := by
    rw [submitResult_errs _ _ h1] at h2
    split at h2
    · cases h2
    · next hf =>
      rw [List.find?_eq_none] at hf
      have := hf e (List.of_mem_zip hz).2
      simp [serious] at this
      unfold ENOENT EPIPE
      omega
  refine ⟨fun hn => ?_, fun k m hkm => ?_⟩
  · have := g1 hn
    refine heff.2.1 this ?_
    rcases herr with h | h | h
    · exact .inl h
    · exact .inr h
    · exact absurd h (heff.2.2.2 this)
  · obtain ⟨k1, k2, k3, k4⟩ := g2 k m hkm
    rcases herr with h | h | h
    · left
      obtain ⟨w, w1, w2, w3⟩ := heff.1 h k1
      refine ⟨w, w1, w2.trans k2, fun hk => ?_⟩
      obtain ⟨w4, w5⟩ := w3 hk
      exact ⟨w4.trans k3, w5.trans k4⟩
    · exact absurd h (heff.2.2.1 k1)
    · right
      rw [h3]
      have := zipWith_mem hz t
      rw [h] at this
      simpa [changeObs, EPIPE] using this

/-- What the events say: readable iff from a read, vnode, process, signal or timer filter; writable iff from a write filter or
an end-of-file on a read filter; the key is the one registered. -/
theorem kqueue_event_iff (ev : KEvent) :
    ((toEvent ev).readable = true ↔ (∃ fd, ev.filter = .read fd) ∨ (∃ fd, ev.filter = .vnode fd) ∨ (∃ p, ev.filter = .proc p) ∨
      (∃ n, ev.filter = .signal n) ∨ ∃ i, ev.filter = .timer i) ∧
    ((toEvent ev).writable = true ↔ (∃ fd, ev.filter = .write fd) ∨ ((∃ fd, ev.filter = .read fd) ∧ ev.flags.eof = true)) ∧
    (∀ k : Key, ev.udata = keyToU64 k → (toEvent ev).key = k) := by
  refine ⟨?_, ?_, ?_⟩
  · cases hf : ev.filter <;> simp [toEvent, hf]
  · cases hf : ev.filter <;> simp [toEvent, hf]
  · intro k hk
    simp only [toEvent, hk]; exact C03.key_round_trip 64 (by decide) k

/-- `add` with interest in reading only; `modify` to writing only, another mode and key; `delete`. -/
example :
    (C04.trace C04.pairCfg (fun _ => none) (by_ 0 [.call (.add 7 (Event.onlyReadable 5) .level), .src, .src, .change none, .change none, .eval])).map
      (fun tr => (tr.head?, watch (fun _ => false) tr (.read 7), watch (fun _ => false) tr (.write 7))) =
    some (some (.ret 0 (.add 7 (Event.onlyReadable 5) .level) (.res .ok)), some ⟨5#64, false, false, false⟩, none) ∧
    (C04.trace C04.pairCfg (fun _ => none) (by_ 0 [.call (.add 7 (Event.onlyReadable 5) .level), .src, .src, .change none, .change none, .eval,
      .call (.modify 7 (Event.onlyWritable 6) .edgeOneshot), .src, .change none, .change none, .eval])).map
      (fun tr => (tr.head?, watch (fun _ => false) tr (.read 7), watch (fun _ => false) tr (.write 7), undisturbed tr 0 (.read 7))) =
    some (some (.ret 0 (.modify 7 (Event.onlyWritable 6) .edgeOneshot) (.res .ok)), none, some ⟨6#64, true, true, false⟩, true) := by
  decide +kernel

/-- On a kernel that does not change the mode of a watched filter, `modify` to one-shot mode returns `Ok` without effect: the
filter is then delivered twice (with nothing in between), which also violates C15. -/
theorem kqueue_mode_kept : ∃ (c : Cfg) (s : S) (tr : List KObs), Reach c Honest s tr ∧ c.keepMode (.read 7) = true ∧
    (∃ tr0, tr = [.waitOk 0 1 [⟨5, true, false, ⟨⟩⟩], .deliver 0 [{ filter := .read 7, flags := {}, udata := 5#64 }], .waitBegin 0,
      .waitOk 0 1 [⟨5, true, false, ⟨⟩⟩], .deliver 0 [{ filter := .read 7, flags := {}, udata := 5#64 }], .waitBegin 0,
      .ret 0 (.modify 7 (Event.onlyReadable 5) .oneshot) (.res .ok)] ++ tr0) := by
  have hr : ((runActs C04.userCfg (init C04.userCfg fun f => if f = .read 7 then some false else none)
      (by_ 0 [.call (.add 7 (Event.onlyReadable 5) .level), .src, .src, .change none, .change none, .eval,
      .call (.modify 7 (Event.onlyReadable 5) .oneshot), .src, .change none, .change none, .eval,
      .wait false 4, .kevent, .finish, .wait false 4, .kevent, .finish])).map fun r => r.2) =
    some ([.waitOk 0 1 [⟨5, true, false, ⟨⟩⟩], .deliver 0 [{ filter := .read 7, flags := {}, udata := 5#64 }], .waitBegin 0,
      .waitOk 0 1 [⟨5, true, false, ⟨⟩⟩], .deliver 0 [{ filter := .read 7, flags := {}, udata := 5#64 }], .waitBegin 0,
      .ret 0 (.modify 7 (Event.onlyReadable 5) .oneshot) (.res .ok)] ++ [.refused 0 (.write 7) 2, .armed 0 (.read 7) 5#64 true false, .tau,
      .begin 0 (.modify 7 (Event.onlyReadable 5) .oneshot), .ret 0 (.add 7 (Event.onlyReadable 5) .level) (.res .ok),
      .refused 0 (.write 7) 2, .armed 0 (.read 7) 5#64 false false, .tau, .inserted 0 (.fd 7),
      .begin 0 (.add 7 (Event.onlyReadable 5) .level)]) := by decide +kernel
  rw [Option.map_eq_some_iff] at hr
  obtain ⟨⟨s, o⟩, hr, he⟩ := hr
  dsimp only at he
  subst he
  have hreach := reach_runP (P := Honest) honest_of (.init _) _ (by decide) s _ hr
  rw [List.append_nil] at hreach
  exact ⟨C04.userCfg, s, _, hreach, rfl, _, rfl⟩

end Polling.C21

namespace Polling.KqM
open Kqueue KqSpec

/-- `kevent` never fails as a whole when called to submit changes (it can still refuse the changes). -/
def NoKfail (s : S) (t : Tid) (a : Act) : Prop :=
  ∀ w todo done e, s.pc t = .submit w todo done → a ≠ .kfail e

theorem errors_zip (t : Tid) : ∀ (pre : List KEvent) (errs : List Nat), pre.length = errs.length →
    errors (List.zipWith (changeObs t) pre errs) = errs.filter (· != 0) := by
  intro pre
  induction pre with
  | nil => intro errs h; cases errs with
    | nil => rfl
    | cons => cases h
  | cons ev pre ih =>
    intro errs h
    cases errs with
    | nil => cases h
    | cons e errs =>
      simp only [List.length_cons, Nat.add_right_cancel_iff] at h
      simp only [List.zipWith_cons_cons, List.filter_cons]
      by_cases h0 : e = 0
      · subst h0
        have : errors (changeObs t ev 0 :: List.zipWith (changeObs t) pre errs) = errors (List.zipWith (changeObs t) pre errs) := by
          unfold changeObs; rw [if_neg (by simp)]; split <;> rfl
        rw [this, ih errs h]
        simp
      · have : changeObs t ev e = .refused t ev.filter e := by simp [changeObs, h0]
        rw [this]
        simp only [errors, ih errs h]
        simp [h0]

theorem source_eq (call : Call) : source call = sourceOf call := by
  cases call <;> first | rfl | (rename_i x; cases x <;> rfl) | (rename_i x _ _; cases x <;> rfl)

theorem accessible_users {c : Cfg} {call : Call} (h : accessible c call = true) : c.users (source call) = true := h

/-- The ways a begun call returns with a result, if `kevent` does not fail as a whole. -/
inductive Ends (s : S) (t : Tid) (call : Call) : Ret → Prop where
  | dup : s.pc t = .insert call → s.sources (source call) = true → Ends s t call (.res (.err .alreadyExists))
  | missing : s.pc t = .has call → s.sources (source call) = false → Ends s t call (.res (.err .notFound))
  | panic : s.pc t = .has call → Ends s t call .panic
  | raced : s.pc t = .remove call → s.sources (source call) = false → Ends s t call (.res (.err .notFound))
  | eval {done} : s.pc t = .submit (.call call) [] done → (submitResult done = .ok → isDelete call = false) →
      Ends s t call (.res (submitResult done))
  | ended : s.pc t = .ending call → Ends s t call (.res .ok)

theorem ret_ends {c P s tr} (h : Reach c P s tr) {t a s' u call r} (hP : NoKfail s t a) (hc : (calling tr t).isSome = true)
    (hs : step c s t a = some (s', .ret u call r)) : u = t ∧ Ends s t call r := by
  rw [(reach_calls h).calling] at hc
  have hn := (step_next hs).2
  generalize ho : KObs.ret u call r = o at hn
  cases hn with
  | reject hp => rw [hp] at hc; cases hc
  | panic0 hp => rw [hp] at hc; cases hc
  | dup hp hx => injection ho with h1 h2 h3; subst h1 h2 h3; exact ⟨rfl, .dup hp hx⟩
  | missing hp hx =>
    injection ho with h1 h2 h3; subst h1 h2 h3
    rcases hp with hp | hp
    · exact ⟨rfl, .missing hp hx⟩
    · exact ⟨rfl, .raced hp hx⟩
  | panic hp => injection ho with h1 h2 h3; subst h1 h2 h3; exact ⟨rfl, .panic hp⟩
  | ended hp => injection ho with h1 h2 h3; subst h1 h2 h3; exact ⟨rfl, .ended hp⟩
  | finCall hf hd =>
    injection ho with h1 h2 h3; subst h1 h2 h3
    cases hf with
    | eval hp => exact ⟨rfl, .eval hp hd⟩
    | fail hp => exact absurd rfl (hP _ _ _ _ hp)
  | change => unfold changeObs at ho; split at ho; cases ho; split at ho <;> cases ho
  | _ => cases ho

theorem isDelete_eq (call : Call) : isDelete call = deletes call := by cases call <;> rfl

end Polling.KqM

namespace Polling.C23
open KqM Kqueue KqSpec

/-- The result of a registration call that got as far as submitting its changes is determined by what the kernel answered to
them: the first serious error (not ENOENT, not EPIPE), else success (a deletion can still find that its source
was removed meanwhile). -/
theorem kqueue_outcome_exact (c : Cfg) (s : S) (tr : List KObs) (t : Tid) (call : Call) (r : Ret)
    (h : Reach c NoKfail s (.ret t call r :: tr)) (hc : (calling tr t).isSome = true) (hl : changeLog tr t ≠ []) :
    (∀ e, (errors (changeLog tr t)).find? serious = some e → r = .res (.err (.os e))) ∧
    ((errors (changeLog tr t)).find? serious = none → r = .res .ok ∨ (deletes call = true ∧ r = .res (.err .notFound))) := by
  obtain ⟨s0, t', a, s1, hr, hP, hs⟩ := reach_split h [] _ tr rfl
  have htt : t = t' := by
    have hn := (step_next hs).2
    generalize ho : KObs.ret t call r = o at hn
    cases hn <;> first | (cases ho; done) | (injection ho) | skip
    unfold changeObs at ho; split at ho; cases ho; split at ho <;> cases ho
  subst htt
  obtain ⟨_, hE⟩ := ret_ends hr hP hc hs
  have hlog := (reach_calls hr).log t
  have find : ∀ (pre : List KEvent) (errs : List Nat), pre.length = errs.length → changeLog tr t = List.zipWith (changeObs t) pre errs →
      (errors (changeLog tr t)).find? serious = errs.find? fun e => e != 0 && serious e := by
    intro pre errs h1 h2
    rw [h2, errors_zip t pre errs h1, List.find?_filter]
    congr 1
    funext e
    rw [Bool.eq_iff_iff]; simp
  cases hE with
  | dup hp => rw [hp] at hlog; exact absurd hlog hl
  | missing hp => rw [hp] at hlog; exact absurd hlog hl
  | panic hp => rw [hp] at hlog; exact absurd hlog hl
  | raced hp =>
    rw [hp] at hlog
    obtain ⟨hd, errs, h1, h2, h3⟩ := hlog
    rw [find _ _ h1 h2]
    rw [submitResult_errs _ _ h1] at h3
    refine ⟨fun e he => ?_, fun _ => .inr ⟨by rw [← isDelete_eq]; exact hd, rfl⟩⟩
    rw [he] at h3; cases h3
  | ended hp =>
    rw [hp] at hlog
    obtain ⟨hd, errs, h1, h2, h3⟩ := hlog
    rw [find _ _ h1 h2]
    rw [submitResult_errs _ _ h1] at h3
    refine ⟨fun e he => ?_, fun _ => .inl rfl⟩
    rw [he] at h3; cases h3
  | eval hp hd =>
    rw [hp] at hlog
    obtain ⟨pre, errs, h0, h1, h2, h3⟩ := hlog
    rw [find _ _ h1 h2, h3, submitResult_errs _ _ h1]
    refine ⟨fun e he => by rw [he], fun he => by rw [he]; exact .inl rfl⟩

/-- A refusal with ENOENT and one with ENOMEM: the second counts.  Only ENOENT and EPIPE: success. -/
example :
    (C04.trace C04.pairCfg (fun _ => none) (by_ 0 [.call (.add 7 (Event.onlyWritable 5) .level), .src, .src, .change none, .change (some 12), .eval])).map
      (fun tr => (tr.head?, changeLog tr 0)) =
    some (some (.ret 0 (.add 7 (Event.onlyWritable 5) .level) (.res (.err (.os 12)))), [.refused 0 (.read 7) 2, .refused 0 (.write 7) 12]) ∧
    (C04.trace C04.pairCfg (fun _ => none) (by_ 0 [.call (.add 7 (Event.onlyWritable 5) .level), .src, .src, .change none, .change (some 32), .eval])).map
      (fun tr => tr.head?) = some (some (.ret 0 (.add 7 (Event.onlyWritable 5) .level) (.res .ok))) := by decide +kernel

end Polling.C23

namespace Polling.KqM
open Kqueue KqSpec

theorem upd_twice (pc : Tid → Pc) (t : Tid) (p q : Pc) : upd (upd pc t p) t q = upd pc t q := by
  funext u; unfold upd; split <;> rfl

/-- A submission without faults succeeds. -/
theorem run_changes {c : Cfg} {t : Tid} {call : Call} (ht : t < c.threads) (todo : List KEvent) : ∀ {s : S} {done : List KEvent},
    s.pc t = .submit (.call call) todo done → submitResult done = .ok →
    ∃ k obs done', runActs c s (by_ t (List.replicate todo.length (.change none))) =
      some ({ s with k, pc := upd s.pc t (.submit (.call call) [] done') }, obs) ∧ submitResult done' = .ok := by
  induction todo with
  | nil =>
    intro s done hp hd
    refine ⟨s.k, [], done, ?_, hd⟩
    show some (s, []) = _
    rw [upd_same _ hp]
  | cons ev todo ih =>
    intro s done hp hd
    rcases hg : register c none s.k ev with ⟨errno, k⟩
    have he := reg_errno (register_reg hg) rfl
    have hstep : step c s t (.change none) = some ({ s with k, pc := upd s.pc t (.submit (.call call) todo (done ++ [receipt ev errno])) },
        changeObs t ev errno) := by
      unfold step
      rw [if_neg (by omega)]
      simp only [hp, hg]
      simp
    have hd' : submitResult (done ++ [receipt ev errno]) = .ok := by
      apply submitResult_append _ _ hd
      rcases he with rfl | rfl
      · simp [receipt]
      · simp [receipt]
    obtain ⟨k', obs, done', hrun, hok⟩ := ih (s := { s with k, pc := upd s.pc t (.submit (.call call) todo (done ++ [receipt ev errno])) })
      (upd_self s.pc t _) hd'
    refine ⟨k', obs ++ [changeObs t ev errno], done', ?_, hok⟩
    have := run_cons hstep hrun
    simp only [upd_twice] at this
    exact this

theorem replicate_noFault {n : Nat} : ∀ x ∈ List.replicate n (Act.change none), noFault x = true := by
  intro x hx; rw [List.eq_of_mem_replicate hx]; rfl

/-- From the submission to the end of the call. -/
theorem run_submit {c : Cfg} {s : S} {t : Tid} {call : Call} (ht : t < c.threads) (hp : s.pc t = .submit (.call call) (changes call) []) :
    ∃ acts s' obs, (∀ x ∈ acts, noFault x = true) ∧ runActs c s (by_ t acts) = some (s', .ret t call
      (.res (if isDelete call = true ∧ s.sources (source call) = false then .err .notFound else .ok)) :: obs) ∧ s'.pc t = .out ∧
      s'.sources (source call) = (!isDelete call && s.sources (source call)) := by
  obtain ⟨k, obs, done, hrun, hok⟩ := run_changes ht (changes call) hp rfl
  cases hd : isDelete call with
  | false =>
    have h2 : step c { s with k, pc := upd s.pc t (.submit (.call call) [] done) } t .eval =
        some ({ s with k, pc := upd (upd s.pc t (.submit (.call call) [] done)) t .out }, .ret t call (.res .ok)) := by
      unfold step
      rw [if_neg (by omega)]
      simp only [upd_self, hok, submitted]
      cases call <;> first | rfl | (simp [isDelete] at hd)
    have := run_append hrun (run_cons h2 (run_nil c _))
    refine ⟨List.replicate (changes call).length (.change none) ++ [.eval],
      { s with k, pc := upd (upd s.pc t (.submit (.call call) [] done)) t .out }, obs, ?_, ?_⟩
    · intro x hx
      rcases List.mem_append.1 hx with hx | hx
      · exact replicate_noFault x hx
      · rw [List.mem_singleton.1 hx]; rfl
    · simp only [Bool.false_eq_true, false_and, if_false]
      unfold by_ at this ⊢
      rw [List.map_append]
      exact ⟨this, upd_self _ t _, by simp⟩
  | true =>
    have h2 : step c { s with k, pc := upd s.pc t (.submit (.call call) [] done) } t .eval =
        some ({ s with k, pc := upd s.pc t (.remove call) }, .tau) := by
      unfold step
      rw [if_neg (by omega)]
      simp only [upd_self, hok, submitted, upd_twice]
      cases call <;> first | rfl | (simp [isDelete] at hd)
    cases hsrc : s.sources (source call) with
    | false =>
      have h3 : step c { s with k, pc := upd s.pc t (.remove call) } t .src =
          some ({ s with k, pc := upd s.pc t .out }, .ret t call (.res (.err .notFound))) := by
        unfold step
        rw [if_neg (by omega)]
        simp only [upd_self, hsrc, upd_twice]
        simp
      have := run_append hrun (run_cons h2 (run_cons h3 (run_nil c _)))
      refine ⟨List.replicate (changes call).length (.change none) ++ [.eval, .src], { s with k, pc := upd s.pc t .out }, .tau :: obs, ?_, ?_⟩
      · intro x hx
        rcases List.mem_append.1 hx with hx | hx
        · exact replicate_noFault x hx
        · simp only [List.mem_cons, List.not_mem_nil, or_false] at hx
          rcases hx with rfl | rfl <;> rfl
      · simp only [and_self, if_true]
        unfold by_ at this ⊢
        rw [List.map_append]
        exact ⟨this, upd_self _ t _, by simp [hsrc]⟩
    | true =>
      have h3 : step c { s with k, pc := upd s.pc t (.remove call) } t .src =
          some ({ s with
            k, sources := fun x => if x = source call then false else s.sources x, pc := upd s.pc t (.ending call) }, .removed t (source call)) := by
        unfold step
        rw [if_neg (by omega)]
        simp only [upd_self, hsrc, upd_twice]
        simp
      have h4 : step c { s with
            k, sources := fun x => if x = source call then false else s.sources x, pc := upd s.pc t (.ending call) } t .eval =
          some ({ s with
            k, sources := fun x => if x = source call then false else s.sources x, pc := upd s.pc t .out }, .ret t call (.res .ok)) := by
        unfold step
        rw [if_neg (by omega)]
        simp only [upd_self, upd_twice]
      have := run_append hrun (run_cons h2 (run_cons h3 (run_cons h4 (run_nil c _))))
      refine ⟨List.replicate (changes call).length (.change none) ++ [.eval, .src, .eval],
        { s with k, sources := fun x => if x = source call then false else s.sources x, pc := upd s.pc t .out }, .removed t (source call) :: .tau :: obs, ?_, ?_⟩
      · intro x hx
        rcases List.mem_append.1 hx with hx | hx
        · exact replicate_noFault x hx
        · simp only [List.mem_cons, List.not_mem_nil, or_false] at hx
          rcases hx with rfl | rfl | rfl <;> rfl
      · simp only [Bool.true_eq_false, and_false, if_false]
        unfold by_ at this ⊢
        rw [List.map_append]
        exact ⟨this, upd_self _ t _, by simp⟩

/-- From `has_source` to the end of the call. -/
theorem run_has {c : Cfg} {s : S} {t : Tid} {call : Call} (ht : t < c.threads) (hp : s.pc t = .has call) (hv : valid c call = true) :
    ∃ acts s' obs, (∀ x ∈ acts, noFault x = true) ∧ runActs c s (by_ t acts) = some (s', .ret t call
      (.res (if s.sources (source call) = false then .err .notFound else .ok)) :: obs) ∧ s'.pc t = .out ∧
      s'.sources (source call) = (!isDelete call && s.sources (source call)) := by
  cases hsrc : s.sources (source call) with
  | false =>
    have h3 : step c s t .src = some ({ s with pc := upd s.pc t .out }, .ret t call (.res (.err .notFound))) := by
      unfold step
      rw [if_neg (by omega)]
      simp only [hp, hsrc]
      simp
    have := run_cons h3 (run_nil c _)
    exact ⟨[.src], { s with pc := upd s.pc t .out }, [], by simp [noFault], by simpa [by_] using this, upd_self _ t _, by simp [hsrc]⟩
  | true =>
    have h3 : step c s t .src = some ({ s with pc := upd s.pc t (.submit (.call call) (changes call) []) }, .tau) := by
      unfold step
      rw [if_neg (by omega)]
      simp only [hp, hsrc, hv]
      simp
    obtain ⟨acts, s', obs, h1, h2, h4, h5⟩ := run_submit (s := { s with pc := upd s.pc t (.submit (.call call) (changes call) []) }) ht (upd_self s.pc t _)
    have := run_cons h3 h2
    rw [hsrc] at h5
    refine ⟨.src :: acts, s', obs ++ [.tau], ?_, ?_, h4, h5⟩
    · intro x hx
      rcases List.mem_cons.1 hx with rfl | hx
      · rfl
      · exact h1 x hx
    · rw [hsrc] at this
      simpa [by_] using this

end Polling.KqM

namespace Polling.C18
open KqM Kqueue KqSpec

/-- The outcome of a registration call that is not interrupted and that the OS has no reason to refuse, in any reachable state:
`add` fails with AlreadyExists exactly if the source is registered, `modify` and `delete` fail with NotFound exactly if
it is not; likewise for the filters of the extension. -/
theorem kqueue_results (c : Cfg) (P) (s : S) (tr : List KObs) (h : Reach c P s tr) (t : Tid) (ht : t < c.threads) (hp : s.pc t = .out)
    (call : Call) (hacc : accessible c call = true) (hres : reserved call = false) (hv : valid c call = true) :
    ∃ acts s' obs, (∀ x ∈ acts, noFault x = true) ∧
      runActs c s (by_ t acts) = some (s', .ret t call (.res (expected call (registered tr (sourceOf call)))) :: obs) ∧
      s'.pc t = .out ∧ s'.sources (sourceOf call) = after call (registered tr (sourceOf call)) := by
  have hsrc : registered tr (sourceOf call) = s.sources (source call) := by
    rw [(reach_srcs h).user _ (accessible_users hacc), source_eq]
  rw [hsrc, ← source_eq]
  have hbegin : step c s t (.call call) = some ({ s with pc := upd s.pc t (first call) }, .begin t call) := by
    unfold step
    rw [if_neg (by omega)]
    cases call <;> simp [hp, hacc, hres, hv, first]
  have go : ∀ acts s' obs, (∀ x ∈ acts, noFault x = true) →
      runActs c { s with pc := upd s.pc t (first call) } (by_ t acts) =
        some (s', .ret t call (.res (expected call (s.sources (source call)))) :: obs) → s'.pc t = .out →
      s'.sources (source call) = after call (s.sources (source call)) →
      ∃ acts s' obs, (∀ x ∈ acts, noFault x = true) ∧
        runActs c s (by_ t acts) = some (s', .ret t call (.res (expected call (s.sources (source call)))) :: obs) ∧
        s'.pc t = .out ∧ s'.sources (source call) = after call (s.sources (source call)) := by
    intro acts s' obs h1 h2 h3 h4
    refine ⟨.call call :: acts, s', obs ++ [.begin t call], ?_, ?_, h3, h4⟩
    · intro x hx
      rcases List.mem_cons.1 hx with rfl | hx
      · rfl
      · exact h1 x hx
    · exact run_cons hbegin h2
  have goHas : first call = .has call → (expected call (s.sources (source call)) = if s.sources (source call) = false then .err .notFound else .ok) →
      (after call (s.sources (source call)) = (!isDelete call && s.sources (source call))) →
      ∃ acts s' obs, (∀ x ∈ acts, noFault x = true) ∧
        runActs c s (by_ t acts) = some (s', .ret t call (.res (expected call (s.sources (source call)))) :: obs) ∧
        s'.pc t = .out ∧ s'.sources (source call) = after call (s.sources (source call)) := by
    intro hf he ha
    obtain ⟨acts, s', obs, h1, h2, h3, h4⟩ := run_has (s := { s with pc := upd s.pc t (first call) }) (call := call) ht (by rw [← hf]; exact upd_self s.pc t _) hv
    exact go acts s' obs h1 (by rw [he]; exact h2) h3 (by rw [ha]; exact h4)
  have goInsert : first call = .insert call → (expected call true = .err .alreadyExists) → expected call false = .ok → isDelete call = false → (∀ b, after call b = true) →
      ∃ acts s' obs, (∀ x ∈ acts, noFault x = true) ∧
        runActs c s (by_ t acts) = some (s', .ret t call (.res (expected call (s.sources (source call)))) :: obs) ∧
        s'.pc t = .out ∧ s'.sources (source call) = after call (s.sources (source call)) := by
    intro hf he1 he2 hdel haf
    rw [hf] at go
    cases hx : s.sources (source call) with
    | true =>
      rw [hx, he1] at go
      rw [he1]
      have h3 : step c { s with pc := upd s.pc t (.insert call) } t .src = some ({ s with pc := upd s.pc t .out }, .ret t call (.res (.err .alreadyExists))) := by
        unfold step
        rw [if_neg (by omega)]
        simp only [upd_self, hx, upd_twice]
        simp
      exact go [.src] _ [] (by simp [noFault]) (run_cons h3 (run_nil c _)) (upd_self s.pc t _) (by rw [haf]; exact hx)
    | false =>
      rw [hx, he2] at go
      rw [he2]
      have h3 : step c { s with pc := upd s.pc t (.insert call) } t .src = some ({ s with
          sources := fun x => if x = source call then true else s.sources x, pc := upd s.pc t (.has call) }, .inserted t (source call)) := by
        unfold step
        rw [if_neg (by omega)]
        simp only [upd_self, hx, upd_twice]
        simp
      obtain ⟨acts, s', obs, h1, h2, h4, h5⟩ := run_has (s := { s with
          sources := fun x => if x = source call then true else s.sources x, pc := upd s.pc t (.has call) }) (call := call) ht (upd_self s.pc t _) hv
      simp only [if_true, Bool.true_eq_false, if_false] at h2
      refine go (.src :: acts) s' (obs ++ [.inserted t (source call)]) ?_ (by rw [← List.cons_append]; exact run_cons h3 h2) h4 (by rw [haf, h5, hdel]; simp)
      intro x hx
      rcases List.mem_cons.1 hx with rfl | hx
      · rfl
      · exact h1 x hx
  cases call with
  | add => exact goInsert rfl rfl rfl rfl (fun _ => rfl)
  | addFilter => exact goInsert rfl rfl rfl rfl (fun _ => rfl)
  | modify => exact goHas rfl (by split <;> simp_all [expected]) (by simp [after, isDelete])
  | modifyFilter => exact goHas rfl (by split <;> simp_all [expected]) (by simp [after, isDelete])
  | delete => exact goHas rfl (by split <;> simp_all [expected]) (by simp [after, isDelete])
  | deleteFilter x =>
    obtain ⟨acts, s', obs, h1, h2, h3, h4⟩ := run_submit (s := { s with pc := upd s.pc t (first (.deleteFilter x)) }) (call := .deleteFilter x) ht (upd_self s.pc t _)
    refine go acts s' obs h1 ?_ h3 h4
    rw [h2]
    cases hx : s.sources (source (.deleteFilter x)) <;> simp [isDelete, expected]

/-- Conversely, with any interleaving of calls: AlreadyExists is only returned for a registered source, NotFound only for one that
is not, in both cases before anything was changed (a deletion that is overtaken by another one excepted). -/
theorem kqueue_failure_changes_nothing (c : Cfg) (s : S) (tr : List KObs) (t : Tid) (call : Call) (e : Err)
    (h : Reach c NoKfail s (.ret t call (.res (.err e)) :: tr)) (hc : (calling tr t).isSome = true) :
    (e = .alreadyExists → registered tr (sourceOf call) = true ∧ changeLog tr t = []) ∧
    (e = .notFound → registered tr (sourceOf call) = false ∧ (changeLog tr t = [] ∨ deletes call = true)) ∧
    (e ≠ .alreadyExists → e ≠ .notFound → ∃ n, e = .os n ∧ n ∈ errors (changeLog tr t)) := by
  obtain ⟨s0, t', a, s1, hr, hP, hs⟩ := reach_split h [] _ tr rfl
  have htt : t = t' := by
    have hn := (step_next hs).2
    generalize ho : KObs.ret t call (.res (.err e)) = o at hn
    cases hn <;> first | (cases ho; done) | (injection ho) | skip
    unfold changeObs at ho; split at ho; cases ho; split at ho <;> cases ho
  subst htt
  obtain ⟨_, hE⟩ := ret_ends hr hP hc hs
  have hlog := (reach_calls hr).log t
  have hpc := reach_pcOk hr t
  have hu := (reach_srcs hr).user
  generalize hre : Ret.res (.err e) = r at hE
  cases hE with
  | dup hp hx =>
    rw [hp] at hlog hpc
    cases hre
    rw [hu _ (accessible_users hpc), source_eq] at hx
    exact ⟨fun _ => ⟨hx, hlog⟩, nofun, fun h => absurd rfl h⟩
  | missing hp hx =>
    rw [hp] at hlog hpc
    cases hre
    rw [hu _ (accessible_users hpc), source_eq] at hx
    exact ⟨nofun, fun _ => ⟨hx, .inl hlog⟩, fun _ h => absurd rfl h⟩
  | panic => cases hre
  | raced hp hx =>
    rw [hp] at hlog hpc
    cases hre
    rw [hu _ (accessible_users hpc), source_eq] at hx
    exact ⟨nofun, fun _ => ⟨hx, .inr (by rw [← isDelete_eq]; exact hlog.1)⟩, fun _ h => absurd rfl h⟩
  | ended => cases hre
  | @eval done hp hd =>
    rw [hp] at hlog
    obtain ⟨pre, errs, h0, h1, h2, h3⟩ := hlog
    rw [h3, submitResult_errs _ _ h1] at hre
    split at hre
    · next n hf =>
      cases hre
      refine ⟨nofun, nofun, fun _ _ => ⟨n, rfl, ?_⟩⟩
      rw [h2, errors_zip t pre errs h1, List.mem_filter]
      have := List.find?_some hf
      simp only [Bool.and_eq_true] at this
      exact ⟨List.mem_of_find?_eq_some hf, this.1⟩
    · cases hre

/-- Double `add`, unknown `modify`, unknown `delete`, on descriptors and filters of the extension. -/
example : (C04.trace C04.pairCfg (fun _ => none) (by_ 0 [.call (.add 7 (Event.onlyReadable 5) .level), .src, .src, .change none, .change none, .eval,
      .call (.add 7 (Event.onlyReadable 6) .level), .src, .call (.modify 8 (Event.onlyReadable 6) .level), .src, .call (.delete 8), .src,
      .call (.deleteFilter (.timer 2)), .change none, .eval, .src])).map (fun tr => tr.filter fun o => match o with | .ret _ _ _ => true | _ => false) =
    some [.ret 0 (.deleteFilter (.timer 2)) (.res (.err .notFound)), .ret 0 (.delete 8) (.res (.err .notFound)),
      .ret 0 (.modify 8 (Event.onlyReadable 6) .level) (.res (.err .notFound)),
      .ret 0 (.add 7 (Event.onlyReadable 6) .level) (.res (.err .alreadyExists)),
      .ret 0 (.add 7 (Event.onlyReadable 5) .level) (.res .ok)] := by decide +kernel

end Polling.C18

namespace Polling.C17
open KqM Kqueue KqSpec Spec

/-- kqueue supports every mode, and rejects none: an `add` of a new source, or `modify` of a registered one, that the OS does not
refuse returns `Ok` whatever the mode. -/
theorem kqueue_rejects_exactly (c : Cfg) (P) (s : S) (tr : List KObs) (h : Reach c P s tr) (t : Tid) (ht : t < c.threads) (hp : s.pc t = .out)
    (fd : Fd) (ev : Event EventExtra) (mode : PollMode) (hfd : c.user = true ∨ fd ≠ c.notifFd) (hk : ev.key ≠ NOTIFY_KEY) :
    modeWorks supportsLevel supportsEdge mode = true ∧
    ∃ acts s' obs, (∀ x ∈ acts, noFault x = true) ∧ runActs c s (by_ t acts) =
      some (s', .ret t (if registered tr (.fd fd) then .modify fd ev mode else .add fd ev mode) (.res .ok) :: obs) := by
  refine ⟨by cases mode <;> rfl, ?_⟩
  have hacc : ∀ call, source call = .fd fd → accessible c call = true := by
    intro call hs
    unfold accessible
    rw [hs]
    rcases hfd with h | h <;> simp [h]
  cases hr : registered tr (.fd fd) with
  | true =>
    obtain ⟨acts, s', obs, h1, h2, _⟩ := C18.kqueue_results c P s tr h t ht hp (.modify fd ev mode) (hacc _ rfl) (by simp [reserved, hk]) rfl
    exact ⟨acts, s', obs, h1, by simpa [sourceOf, hr, expected] using h2⟩
  | false =>
    obtain ⟨acts, s', obs, h1, h2, _⟩ := C18.kqueue_results c P s tr h t ht hp (.add fd ev mode) (hacc _ rfl) (by simp [reserved, hk]) rfl
    exact ⟨acts, s', obs, h1, by simpa [sourceOf, hr, expected] using h2⟩

end Polling.C17

namespace Polling.C24
open KqM Kqueue KqSpec

/-- A failed `add` does leave something behind on kqueue.  The kernel refuses to watch descriptor 7 (with ENOMEM), `add`
returns the error, and a second `add` of the descriptor is rejected as a duplicate: the source was entered into the
set before (kqueue.rs:87-92) and is not taken out again. -/
theorem kqueue_failed_add_is_remembered : ∃ (c : Cfg) (s : S) (tr : List KObs), Reach c Any s tr ∧ (∀ f, watch c.keepMode tr f = none) ∧
    ∃ tr0, tr = [.ret 0 (.add 7 (Event.onlyReadable 6) .oneshot) (.res (.err .alreadyExists)), .begin 0 (.add 7 (Event.onlyReadable 6) .oneshot),
      .ret 0 (.add 7 (Event.onlyReadable 5) .level) (.res (.err (.os 12)))] ++ tr0 := by
  have hr : ((runActs C04.pairCfg (init C04.pairCfg fun _ => none)
      (by_ 0 [.call (.add 7 (Event.onlyReadable 5) .level), .src, .src, .change (some 12), .change none, .eval,
      .call (.add 7 (Event.onlyReadable 6) .oneshot), .src])).map fun r => r.2) =
    some ([.ret 0 (.add 7 (Event.onlyReadable 6) .oneshot) (.res (.err .alreadyExists)), .begin 0 (.add 7 (Event.onlyReadable 6) .oneshot),
      .ret 0 (.add 7 (Event.onlyReadable 5) .level) (.res (.err (.os 12)))] ++
      [.refused 0 (.write 7) 2, .refused 0 (.read 7) 12, .tau, .inserted 0 (.fd 7), .begin 0 (.add 7 (Event.onlyReadable 5) .level)]) := by
    decide +kernel
  rw [Option.map_eq_some_iff] at hr
  obtain ⟨⟨s, o⟩, hr, he⟩ := hr
  dsimp only at he
  subst he
  have hreach := reach_run (.init _) _ s _ hr
  rw [List.append_nil] at hreach
  exact ⟨C04.pairCfg, s, _, hreach, fun f => rfl, _, rfl⟩

/-- And if the kernel accepts to watch the descriptor for reading, but not for writing, `add` fails but the descriptor stays
watched, and its event is delivered. -/
theorem kqueue_failed_add_is_watched : ∃ (c : Cfg) (s : S) (tr : List KObs), Reach c Any s tr ∧
    ∃ tr0, tr = [.waitOk 0 1 [⟨5, true, false, ⟨⟩⟩], .deliver 0 [{ filter := .read 7, flags := {}, udata := 5#64 }], .waitBegin 0,
      .ret 0 (.add 7 (Event.all 5) .level) (.res (.err (.os 12)))] ++ tr0 := by
  have hr : ((runActs C04.userCfg (init C04.userCfg fun f => if f = .read 7 then some false else none)
      (by_ 0 [.call (.add 7 (Event.all 5) .level), .src, .src, .change none, .change (some 12), .eval, .wait false 4, .kevent, .finish])).map fun r => r.2) =
    some ([.waitOk 0 1 [⟨5, true, false, ⟨⟩⟩], .deliver 0 [{ filter := .read 7, flags := {}, udata := 5#64 }], .waitBegin 0,
      .ret 0 (.add 7 (Event.all 5) .level) (.res (.err (.os 12)))] ++
      [.refused 0 (.write 7) 12, .armed 0 (.read 7) 5#64 false false, .tau, .inserted 0 (.fd 7), .begin 0 (.add 7 (Event.all 5) .level)]) := by
    decide +kernel
  rw [Option.map_eq_some_iff] at hr
  obtain ⟨⟨s, o⟩, hr, he⟩ := hr
  dsimp only at he
  subst he
  have hreach := reach_run (.init _) _ s _ hr
  rw [List.append_nil] at hreach
  exact ⟨C04.userCfg, s, _, hreach, _, rfl⟩

/-- What remains true: after a failed `add` the source can be deleted, and then added again.
Missing (and false, see above): that it can be added without deleting it first, and that no event is delivered. -/
theorem kqueue_failed_add_partial (c : Cfg) (s : S) (tr : List KObs) (t : Tid) (fd : Fd) (ev : Event EventExtra) (mode : PollMode) (e : Err)
    (h : Reach c Any s (.ret t (.add fd ev mode) (.res (.err e)) :: tr)) (hreg : registered tr (.fd fd) = true)
    (hfd : c.user = true ∨ fd ≠ c.notifFd) (ev' : Event EventExtra) (hk : ev'.key ≠ NOTIFY_KEY) (mode' : PollMode) :
    ∃ acts s' obs' obs, (∀ x ∈ acts, noFault x = true) ∧ runActs c s (by_ t acts) =
      some (s', .ret t (.add fd ev' mode') (.res .ok) :: obs' ++ .ret t (.delete fd) (.res .ok) :: obs) := by
  have hacc : ∀ call, source call = .fd fd → accessible c call = true := by
    intro call hs
    unfold accessible
    rw [hs]
    rcases hfd with h | h <;> simp [h]
  have hp : s.pc t = .out ∧ t < c.threads := by
    cases h with
    | step hr _ hs =>
      obtain ⟨ht, hn⟩ := step_next hs
      generalize ho : KObs.ret t (.add fd ev mode) (.res (.err e)) = o at hn
      cases hn <;> first | (cases ho; done) | (injection ho with h1 h2 h3; subst h1; first | exact ⟨upd_self _ t _, ht⟩ | exact ⟨by assumption, ht⟩) | skip
      unfold changeObs at ho; split at ho; cases ho; split at ho <;> cases ho
  obtain ⟨hp, ht⟩ := hp
  obtain ⟨acts, s1, obs, h1, h2, h3, h4⟩ := C18.kqueue_results c Any s _ h t ht hp (.delete fd) (hacc _ rfl) rfl rfl
  have hreach := reach_run h _ s1 _ h2
  have hreg1 : registered (.ret t (.delete fd) (.res (expected (.delete fd)
      (registered (.ret t (.add fd ev mode) (.res (.err e)) :: tr) (sourceOf (.delete fd))))) :: obs ++ (.ret t (.add fd ev mode) (.res (.err e)) :: tr)) (.fd fd) = false := by
    rw [← (reach_srcs hreach).user (.fd fd) (accessible_users (hacc (.delete fd) rfl))]
    exact h4
  obtain ⟨acts', s2, obs', g1, g2, g3, g4⟩ := C18.kqueue_results c Any s1 _ hreach t ht h3 (.add fd ev' mode') (hacc _ rfl) (by simp [reserved, hk]) rfl
  refine ⟨acts ++ acts', s2, obs', obs, ?_, ?_⟩
  · intro x hx
    rcases List.mem_append.1 hx with hx | hx
    · exact h1 x hx
    · exact g1 x hx
  · have := run_append h2 g2
    unfold by_ at this ⊢
    rw [List.map_append, this]
    have e1 : registered (.ret t (.add fd ev mode) (.res (.err e)) :: tr) (sourceOf (.delete fd)) = true := hreg
    have e2 : sourceOf (.add fd ev' mode') = .fd fd := rfl
    rw [e2, hreg1, e1]
    rfl

end Polling.C24

namespace Polling.C40
open KqM Kqueue KqSpec

/-- The extension accepts the reserved key, and then the events of the filter are taken from the OS and not shown: a
signal filter is registered with it, the signal arrives, `wait` is woken and returns `Ok(0)` without events. -/
theorem kqueue_reserved_key_accepted : ∃ (c : Cfg) (s : S) (tr : List KObs), Reach c Honest s tr ∧
    ∃ tr0, tr = [.waitOk 0 0 [], .deliver 0 [{ filter := .signal 10, flags := {}, udata := keyToU64 NOTIFY_KEY }], .tau, .waitBegin 0,
      .ret 0 (.addFilter (.signal 10) NOTIFY_KEY .level) (.res .ok)] ++ tr0 := by
  have hr : ((runActs C04.userCfg (init C04.userCfg fun _ => none)
      (by_ 0 [.call (.addFilter (.signal 10) NOTIFY_KEY .level), .src, .src, .change none, .eval, .wait false 4, .cond (.signal 10) (some false), .kevent,
        .finish])).map fun r => r.2) =
    some ([.waitOk 0 0 [], .deliver 0 [{ filter := .signal 10, flags := {}, udata := keyToU64 NOTIFY_KEY }], .tau, .waitBegin 0,
      .ret 0 (.addFilter (.signal 10) NOTIFY_KEY .level) (.res .ok)] ++
      [.armed 0 (.signal 10) (keyToU64 NOTIFY_KEY) false false, .tau, .inserted 0 (.signal 10), .begin 0 (.addFilter (.signal 10) NOTIFY_KEY .level)]) := by
    decide +kernel
  rw [Option.map_eq_some_iff] at hr
  obtain ⟨⟨s, o⟩, hr, he⟩ := hr
  dsimp only at he
  subst he
  have hreach := reach_runP (P := Honest) honest_of (.init _) _ (by decide) s _ hr
  rw [List.append_nil] at hreach
  exact ⟨C04.userCfg, s, _, hreach, _, rfl⟩

/-- The portable calls reject it, before anything else. -/
theorem kqueue_portable_partial (c : Cfg) (s : S) (t : Tid) (ht : t < c.threads) (hp : s.pc t = .out) (call : Call) (hacc : accessible c call = true)
    (hk : (∃ fd ev mode, call = .add fd ev mode ∧ ev.key = NOTIFY_KEY) ∨ ∃ fd ev mode, call = .modify fd ev mode ∧ ev.key = NOTIFY_KEY) :
    step c s t (.call call) = some (s, .ret t call (.res (.err .invalidInput))) := by
  unfold step
  rw [if_neg (by omega)]
  rcases hk with ⟨fd, ev, mode, rfl, hk⟩ | ⟨fd, ev, mode, rfl, hk⟩ <;> simp [hp, hacc, reserved, hk]

end Polling.C40
