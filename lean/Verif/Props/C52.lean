import Verif.Proof.IocpFBuf
import Verif.Model.Buffers
import Verif.Props.C49
import Verif.Props.KqCalls
import Verif.Proof.PollReach

/-! C52: no call panics, except for filters of invalid signal numbers. -/

namespace Polling.C52

section iocp
open Iocp IocpSpec IocpM IocpF

/-- A thread is at a place of the IOCP backend where it panics. -/
inductive Panics (f : F) : Prop where
  /-- iocp/mod.rs:440 `debug_assert!(!was_polling)` -/
  | polling (w : W) : f.m.phase = .start w → f.m.c.polling = true → Panics f
  /-- iocp/mod.rs:445 `debug_assert!(was_polling)`, after the system call -/
  | notPolling (w : W) (batch : List PId) : f.m.phase = .unpoll w batch → f.m.c.polling = false → Panics f
  /-- iocp/mod.rs:445, when an error is returned -/
  | notPollingErr (w : W) (e : Err) : f.m.phase = .fail w e → f.m.c.polling = false → Panics f
  /-- iocp/mod.rs:779 `unreachable!()`: `AfdPollInfo` of something else than a socket -/
  | noAfdInfo (p : PId) (who : Who) (mask : Mask) :
      f.sec p = some (who, .info mask) → (∀ s, f.m.c.pk p ≠ .socket s) → Panics f
  /-- iocp/mod.rs:850 `unreachable!()`: the callback of something else than a waitable -/
  | noWaitable (p : PId) : p ∈ f.m.cb → (∀ w, f.m.c.pk p ≠ .waitable w) → Panics f
  /-- iocp/mod.rs:1009 `unwrap()` of a poisoned mutex, or a wait for a mutex that the thread itself holds -/
  | closing (p : PId) (who : Who) : f.sec p = some (who, .closing) → Panics f
  /-- iocp/mod.rs:1069 `panic!("can't delete packet that doesn't belong to a socket")` -/
  | delete (t : Tid) (call : Call) (p : PId) :
      f.m.pc t = .del call p → (∀ s, f.m.c.pk p ≠ .socket s) → (∀ w, f.m.c.pk p ≠ .waitable w) → Panics f
  /-- iocp/mod.rs:1085 `assert!(matches!(socket.status, SocketStatus::Polling { .. }))` -/
  | cancel (p : PId) (who : Who) (del : Bool) (s : Sock) :
      f.sec p = some (who, .pending del) → f.m.c.pk p = .socket s → (∀ flags, s.status ≠ .polling flags) → Panics f

theorem ident_kind {x : Pkt} (h : ident x ≠ none) : (∃ s, x = .socket s) ∨ ∃ w, x = .waitable w := by
  cases x with
  | socket s => exact .inl ⟨s, rfl⟩
  | waitable w => exact .inr ⟨w, rfl⟩
  | free => exact absurd rfl h
  | custom ev => exact absurd rfl h
  | wakeup => exact absurd rfl h

/-- A packet whose mutex is held, or that is one in the coarse machine, is a socket or a waitable. -/
theorem kind_of {n f tr p} (h : FReach n FAny f tr) (hi : f.sec p = none → ident ((abs f).c.pk p) ≠ none) :
    (∃ s, f.m.c.pk p = .socket s) ∨ ∃ w, f.m.c.pk p = .waitable w := by
  cases hs : f.sec p with
  | some wp =>
    obtain ⟨who, pos⟩ := wp
    have := ((refine_any h).2.sec p who pos hs).1
    cases hx : f.m.c.pk p with
    | socket s => exact .inl ⟨s, rfl⟩
    | waitable w => exact .inr ⟨w, rfl⟩
    | free => rw [hx] at this; exact this.elim
    | custom ev => rw [hx] at this; exact this.elim
    | wakeup => rw [hx] at this; exact this.elim
  | none =>
    have h1 := hi hs
    have h2 : (abs f).c.pk p = absPkt (decide (f.taken = some p)) (f.sec p) (f.m.c.pk p) := rfl
    rw [h2, hs] at h1
    cases hx : f.m.c.pk p with
    | socket s => exact .inl ⟨s, rfl⟩
    | waitable w => exact .inr ⟨w, rfl⟩
    | free => rw [hx] at h1; exact absurd rfl h1
    | custom ev => rw [hx] at h1; exact absurd rfl h1
    | wakeup => rw [hx] at h1; exact absurd rfl h1

/-- The IOCP backend never panics, whatever its callers do at the same time, whatever the system calls answer, and wherever the
threads are interrupted. -/
theorem iocp_never_panics (n : Nat) (f : F) (tr : List IObs) (h : FReach n FAny f tr) : ¬ Panics f := by
  have hr := (refine_any h).1
  have hi := (refine_any h).2
  have hpol : f.m.c.polling = (abs f).phase.polls := reach_polling hr
  have hfree : (∀ k p, phaseSite f.m.phase ≠ some (k, p)) → (abs f).phase = f.m.phase :=
    fun hn => absPhase_free fun k p hk => absurd hk (hn k p)
  intro hp
  cases hp with
  | polling w h1 h2 =>
    rw [hfree (by rw [h1]; nofun), h1, h2] at hpol; cases hpol
  | notPolling w b h1 h2 =>
    rw [hfree (by rw [h1]; nofun), h1, h2] at hpol; cases hpol
  | notPollingErr w e h1 h2 =>
    rw [hfree (by rw [h1]; nofun), h1, h2] at hpol; cases hpol
  | noAfdInfo p who mask h1 h2 =>
    have := (hi.sec p who _ h1).1
    cases hx : f.m.c.pk p with
    | socket s => exact h2 s hx
    | waitable w => rw [hx] at this; exact this.elim
    | free => rw [hx] at this; exact this.elim
    | custom ev => rw [hx] at this; exact this.elim
    | wakeup => rw [hx] at this; exact this.elim
  | noWaitable p h1 h2 =>
    have hk := (reach_cb hr).2 p (List.mem_append.mpr (.inl h1))
    have : (abs f).c.pk p = absPkt (decide (f.taken = some p)) (f.sec p) (f.m.c.pk p) := rfl
    rw [this] at hk
    cases hx : f.m.c.pk p with
    | waitable w => exact h2 w hx
    | socket s => rw [hx] at hk; cases hs : f.sec p <;> rw [hs] at hk <;> cases hk
    | free => rw [hx] at hk; cases hs : f.sec p <;> rw [hs] at hk <;> cases hk
    | custom ev => rw [hx] at hk; cases hs : f.sec p <;> rw [hs] at hk <;> cases hk
    | wakeup => rw [hx] at hk; cases hs : f.sec p <;> rw [hs] at hk <;> cases hk
  | closing p who h1 => exact never_closing h p who h1
  | delete t call p h1 h2 h3 =>
    have : f.sec p = none → ident ((abs f).c.pk p) ≠ none := by
      intro hs
      have hpc : (abs f).pc t = .del call p := by
        show absPc t f.sec f.m.c.pk (f.m.pc t) = _
        rw [h1]
        refine absPc_free fun k q hk => ?_
        cases hk
        rw [hs]
        cases f.m.c.pk p <;> rfl
      rw [reach_own hr t call p (by rw [hpc]; rfl)]
      nofun
    rcases kind_of h this with ⟨s, hs⟩ | ⟨w, hw⟩
    · exact h2 s hs
    · exact h3 w hw
  | cancel p who d s h1 h2 h3 =>
    have := (hi.sec p who _ h1).1
    rw [h2] at this
    cases d
    · obtain ⟨flags, h4, _⟩ := this.2; exact h3 flags h4
    · obtain ⟨flags, h4⟩ := this.2; exact h3 flags h4

/-- `update` is only called for sockets and waitables: it never reports an invalid state (iocp/mod.rs:877). -/
theorem iocp_update_valid (n : Nat) (f : F) (tr : List IObs) (h : FReach n FAny f tr) (who : Who) (p : PId)
    (hs : site f.m who = some (.upd, p)) : (∃ s, f.m.c.pk p = .socket s) ∨ ∃ w, f.m.c.pk p = .waitable w := by
  have hr := (refine_any h).1
  refine kind_of h fun hn => reach_holder hr p ?_
  have hout : ∀ w, outOf w (f.sec p) (f.m.c.pk p) = none := by
    intro w; rw [hn]; cases f.m.c.pk p <;> rfl
  cases who with
  | callback q =>
    exfalso
    have h0 : (if q ∈ f.m.cb then some (IocpF.Kind.cb, q) else none) = some (.upd, p) := hs
    split at h0 <;> cases h0
  | thread t =>
    refine .inr (.inl ⟨t, ?_⟩)
    have h0 : pcSite (f.m.pc t) = some (.upd, p) := hs
    have hpc : (abs f).pc t = f.m.pc t := by
      show absPc t f.sec f.m.c.pk (f.m.pc t) = _
      refine absPc_free fun k q hk => ?_
      rw [h0] at hk; cases hk; exact hout _
    rw [hpc]
    generalize f.m.pc t = pc at h0
    unfold pcSite at h0
    split at h0
    · cases h0
    · cases h0
    · rename_i call u
      cases u <;> cases h0 <;> first | exact rfl | exact .inr rfl | exact .inl rfl
    · cases h0
  | waiter =>
    refine .inr (.inr ?_)
    have h0 : phaseSite f.m.phase = some (.upd, p) := hs
    have hph : (abs f).phase = f.m.phase := by
      show absPhase f.sec f.m.c.pk f.m.phase = _
      refine absPhase_free fun k q hk => ?_
      rw [h0] at hk; cases hk; exact hout _
    rw [hph]
    generalize f.m.phase = ph at h0
    unfold phaseSite at h0
    split at h0
    · cases h0; exact rfl
    · cases h0
    · rename_i w b u ev
      cases u <;> cases h0 <;> first | exact rfl | exact .inr rfl | exact .inl rfl
    · cases h0

/- The threads get to all of these places but the last: in the run of `C49`, then with a timer, then with `delete`. -/

example :
    (runF 1 IocpF.init (C49.before.take 17)).map (fun r => r.1.sec 1) = some (some (.waiter, .info 0x19b#32)) ∧
    (runF 1 IocpF.init [.plain (.waitBegin true 8), .plain (.wait none)]).map (fun r => (r.1.m.phase, r.1.m.c.polling)) =
      some (.start ⟨true, 8, false, 0, []⟩, false) ∧
    (runF 1 IocpF.init [.plain (.waitBegin true 8), .plain (.wait none), .plain (.wait none), .plain (.wait none), .plain .get]).map
      (fun r => (r.1.m.phase, r.1.m.c.polling)) = some (.unpoll ⟨true, 8, false, 0, []⟩ [], true) ∧
    (runF 1 IocpF.init [.plain (.waitBegin true 8), .plain (.wait none), .plain (.wait none), .plain (.wait none), .plain (.getFail (.os 5))]).map
      (fun r => (r.1.m.phase, r.1.m.c.polling)) = some (.fail ⟨true, 8, false, 0, []⟩ (.os 5), true) := by decide +kernel

end iocp

section poll
open PollP PollB PollFlags PollSpec

/-- The `poll` backend never panics: in no state of any concurrent run does a registration call or a round of `wait` reach an index
out of bounds, an `unwrap` of nothing or a subtraction below zero, whatever the OS reports and in whatever order the table of
sources is enumerated.  (So the mutex of the table is never poisoned either.) -/
theorem poll_never_panics (c : Cfg) (P : Act → Prop) (s : S) (tr : List PObs) (h : Reach c P s tr) :
    (∀ op, PollB.call c.n s.tbl op ≠ none) ∧
    ∀ (os : Fd → Flags → Flags) (order : List Fd) (notified : Bool), order.isPerm (s.tbl.pollFds.tail.map PollFd.fd) = true →
      PollB.round os order notified s.tbl ≠ none := by
  have ht := reach_T h
  refine ⟨fun op => ?_, fun os order b ho => ?_⟩
  · obtain ⟨fds, h1, -⟩ := call_spec ht.inv ht.rel op
    rw [h1]; nofun
  · obtain ⟨fds, -, -, h1⟩ := round_spec ht.inv ht.rel os order (enumerates_of ht.rel (lists_of_perm ht.inv ht.rel ho)) b
    rw [h1]; nofun

end poll

section kqueue
open KqM Kqueue KqSpec

/-- A call of the `kqueue` backend panics only if it is given a `Signal` whose number is none. -/
theorem kqueue_panics_only_on_signals_partial (c : Cfg) (P : S → Tid → Act → Prop) (s : S) (tr : List KObs) (h : Reach c P s tr)
    (t : Tid) (call : Call) (hp : .ret t call .panic ∈ tr) :
    ∃ n, c.validSignal n = false ∧
      ((∃ key mode, call = .addFilter (.signal n) key mode) ∨ (∃ key mode, call = .modifyFilter (.signal n) key mode) ∨
        call = .deleteFilter (.signal n)) := by
  induction h with
  | init => cases hp
  | @step s tr u a s' o _ _ hs ih =>
    rcases List.mem_cons.mp hp with hp | hp
    · have hv : valid c call = false := by
        have hn := (step_next hs).2
        cases hn with
        | panic0 _ _ h => injection hp with _ h2; rw [h2]; exact h
        | panic _ _ h => injection hp with _ h2; rw [h2]; exact h
        | change =>
          unfold changeObs at hp
          split at hp
          · cases hp
          · split at hp <;> cases hp
        | _ => cases hp
      cases call with
      | add => cases hv
      | modify => cases hv
      | delete => cases hv
      | addFilter x key mode =>
        cases x with
        | signal n => exact ⟨n, hv, .inl ⟨_, _, rfl⟩⟩
        | process => cases hv
        | timer => cases hv
      | modifyFilter x key mode =>
        cases x with
        | signal n => exact ⟨n, hv, .inr (.inl ⟨_, _, rfl⟩)⟩
        | process => cases hv
        | timer => cases hv
      | deleteFilter x =>
        cases x with
        | signal n => exact ⟨n, hv, .inr (.inr rfl)⟩
        | process => cases hv
        | timer => cases hv
    · exact ih hp

/-- A kernel with the signals 1 to 31. -/
def signals : Cfg := { C04.userCfg with validSignal := fun n => decide (1 ≤ n ∧ n ≤ 31) }

/-- It does panic then (os/kqueue.rs:156).  When `add_filter` panics, the filter is recorded as registered all the same: another
`add_filter` of it fails with `AlreadyExists`, and `delete_filter` panics as well. -/
theorem kqueue_invalid_signal : ∃ (s : S) (tr : List KObs), Reach signals Honest s tr ∧ tr =
    [.ret 0 (.deleteFilter (.signal 99)) .panic,
     .ret 0 (.addFilter (.signal 99) 6 .level) (.res (.err .alreadyExists)), .begin 0 (.addFilter (.signal 99) 6 .level),
     .ret 0 (.addFilter (.signal 99) 5 .level) .panic, .inserted 0 (.signal 99), .begin 0 (.addFilter (.signal 99) 5 .level)] := by
  have hr : ((runActs signals (init signals fun _ => none)
      (by_ 0 [.call (.addFilter (.signal 99) 5 .level), .src, .src, .call (.addFilter (.signal 99) 6 .level), .src,
        .call (.deleteFilter (.signal 99))])).map fun r => r.2) =
    some [.ret 0 (.deleteFilter (.signal 99)) .panic,
     .ret 0 (.addFilter (.signal 99) 6 .level) (.res (.err .alreadyExists)), .begin 0 (.addFilter (.signal 99) 6 .level),
     .ret 0 (.addFilter (.signal 99) 5 .level) .panic, .inserted 0 (.signal 99), .begin 0 (.addFilter (.signal 99) 5 .level)] := by
    decide +kernel
  rw [Option.map_eq_some_iff] at hr
  obtain ⟨⟨s, o⟩, hr, he⟩ := hr
  dsimp only at he
  subst he
  have hreach := reach_runP (P := Honest) honest_of (.init _) _ (by decide) s _ hr
  rw [List.append_nil] at hreach
  exact ⟨s, _, hreach, rfl⟩

end kqueue

section port
open Buffers

/-- `wait` of the completion port panics exactly if its buffer has room for 2^32 entries or more (iocp/port.rs:234), whatever
the OS would answer.  (`Events::with_capacity` creates it with the capacity that the user asks for, and no `wait` changes it.) -/
theorem iocp_wait_panics_iff {W α : Type} (get : W → Nat → Nat → Except Err (List α) × W) (w : W) (v : Vec α) (t : Option Duration) :
    iocpPortWait get w v t = none ↔ 2 ^ 32 ≤ v.cap := by
  unfold iocpPortWait tryInto u32Max
  dsimp only [Vec.clear]
  constructor
  · intro h
    by_cases hc : v.cap ≤ 2 ^ 32 - 1
    · rw [if_pos hc] at h
      dsimp only at h
      split at h <;> cases h
    · omega
  · intro h
    rw [if_neg (by omega)]

/-- So it does for the buffer of `Events::with_capacity(2^32)`, and it does not for that of `Events::new()`. -/
example : iocpPortWait (fun (w : Unit) _ _ => (.ok [], w)) () (Vec.withCapacity 0 (2 ^ 32) : Vec Unit) none = none ∧
    iocpPortWait (fun (w : Unit) _ _ => (.ok [], w)) () (Vec.withCapacity 0 1024 : Vec Unit) none ≠ none :=
  ⟨(iocp_wait_panics_iff _ _ _ _).2 (Nat.le_refl _), fun h => absurd ((iocp_wait_panics_iff _ _ _ _).1 h) (by decide)⟩

end port

end Polling.C52
