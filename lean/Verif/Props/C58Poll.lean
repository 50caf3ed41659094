import Verif.Proof.LivePoll
import Verif.Props.PollDelivery
import Verif.Props.C05Poll
import Verif.Props.C58

/-! C58: a program that asked for an event gets it: poll. -/

namespace Polling.C58
open PollP PollB PollFlags PollSpec Live C05

/-- In every reachable state of the poll backend, for any number of threads and any failures: the program's latest call for a source
was a successful `add` or `modify` in level or one-shot mode that overlapped with no other call for it, in one-shot mode the program
has not been told since, and the OS has something to report about the source if asked for that interest.  Then a `wait` in `poll(2)`
does not sleep: `poll(2)` returns, and by its own steps `wait` returns events, an event with the key the program gave among them, in
whatever order the table is enumerated. -/
theorem poll_live (c : Cfg) (s : S) (tr : List PObs) (h : Reach c Any s tr) (t : Tid) (b : Bool) (hpc : s.pc t = .wPoll b)
    (fd : Fd) (key : Key) (r w : Bool) (mode : PollMode) (hask : Asked (tr.flatMap ofPObs) fd key r w mode)
    (os : Fd → Flags → Flags)
    (hready : os fd ((if r then IN ||| PRI else 0#16) ||| (if w then OUT ||| WRBAND else 0#16)) ≠ 0#16)
    (hos : decide (os c.n.readFd c.n.flags ≠ 0#16) = decide (s.chan > 0)) :
    ∃ k s1, runActs c s ((t, .waitPoll os) :: List.replicate k (t, .waitPopAll)) = some (s1, List.replicate (k + 1) .tau) ∧
      s1.pc t = .wSwap2 b os ∧ s1.tbl = s.tbl ∧
      ∀ order, order.isPerm (s.tbl.pollFds.tail.map PollFd.fd) = true →
        ∃ s2 n shown l, runActs c s1 [(t, .waitSwap2 order), (t, .waitUnlock), (t, .waitFinish)] =
            some (s2, [.waitOk t n shown, .tau, .round t os order s.notified (.events l)]) ∧
          key ∈ shown.map Event.key := by
  have hI := reach_I h
  have hlt : t < c.threads := by
    by_cases hlt : t < c.threads
    · exact hlt
    · have := hI.range t (by omega); rw [hpc] at this; cases this
  have hg : ∀ u l, waitState tr ≠ some (.got u l) := by
    intro u l hg
    obtain ⟨st, hst, hW⟩ := reach_wait h
    rw [hg] at hst
    obtain rfl := Option.some.inj hst
    have hl := (hI.lib t).1 (by rw [hpc]; rfl)
    rcases hW with ⟨hn, _⟩ | ⟨v, hv, ⟨he, _⟩ | ⟨l', he, ho⟩⟩
    · rw [hn] at hl; cases hl
    · cases he
    · rw [hl] at hv; cases hv
      rw [hpc] at ho; cases ho
  obtain ⟨hkey, cu, hc, hk, rfl, rfl, rfl, hm⟩ := asked_current h hg hask
  have hasks : asks cu = ((if cu.ev.readable then IN ||| PRI else 0#16) ||| (if cu.ev.writable then OUT ||| WRBAND else 0#16)) := by
    unfold asks
    rw [if_neg]
    rintro ⟨h1, h2⟩
    rcases hm with hm | hm
    · rw [hm] at h2; cases h2
    · rw [hm] at h1; cases h1
  obtain ⟨s0, hs0⟩ := C16.poll_level_not_asleep h hpc fd cu hc os (by rw [hasks]; exact hready) hos
  have hs0' : s0 = { s with pc := upd s.pc t (if s.chan > 0 then .wPopAll b os else .wSwap2 b os) } := by
    have := hs0
    simp only [step, if_pos hlt, hpc] at this
    split at this <;> cases this
    rfl
  have hdrain : ∃ k s1, runActs c s ((t, .waitPoll os) :: List.replicate k (t, .waitPopAll)) = some (s1, List.replicate (k + 1) .tau) ∧
      s1.pc t = .wSwap2 b os ∧ s1.tbl = s.tbl ∧ s1.notified = s.notified := by
    by_cases hch : s.chan > 0
    · rw [if_pos hch] at hs0'
      obtain ⟨k, hk⟩ := popAll_run (b := b) (os := os) hlt s0.chan s0 (Nat.le_refl _) (by rw [hs0']; exact upd_self _ _ _)
      have hk := hk []
      refine ⟨k, { s0 with chan := 0, pc := PollP.upd s0.pc t (.wSwap2 b os) }, ?_, ?_, ?_, ?_⟩
      rotate_left
      · exact upd_self s0.pc t _
      · rw [hs0']
      · rw [hs0']
      · simp only [List.append_nil, runActs, Option.map_some, List.nil_append] at hk
        simp only [runActs, hs0, Option.bind_some, hk, Option.map_some]
        rw [List.replicate_succ']
    · rw [if_neg hch] at hs0'
      exact ⟨0, s0, by simp [runActs, hs0], by rw [hs0']; exact upd_self _ _ _, by rw [hs0'], by rw [hs0']⟩
  obtain ⟨k, s1, hrun, hpc1, htbl, hno⟩ := hdrain
  refine ⟨k, s1, hrun, hpc1, htbl, fun order hord => ?_⟩
  have hr1 := reach_run h _ _ _ (fun _ _ => trivial) hrun
  have hhist : ∀ n, history true (List.replicate n .tau ++ tr) = List.replicate n .tau ++ history true tr := by
    intro n
    induction n with
    | zero => rfl
    | succ n ih => rw [List.replicate_succ, List.replicate_succ, List.cons_append, List.cons_append, ← ih]; rfl
  have hcur : ∀ n, Spec.current (List.replicate n .tau ++ history true tr) fd = some cu := by
    intro n
    induction n with
    | zero => exact hc
    | succ n ih => rw [List.replicate_succ, List.cons_append]; exact ih
  have hT := reach_T hr1
  have hord1 : order.isPerm (s1.tbl.pollFds.tail.map PollFd.fd) = true := by rw [htbl]; exact hord
  have hl := lists_of_perm hT.inv hT.rel hord1
  obtain ⟨fds', _, _, hround⟩ := round_spec hT.inv hT.rel os order (enumerates_of hT.rel hl) s1.notified
  have hsw : ∃ s2 o, step c s1 t (.waitSwap2 order) = some (s2, .round t os order s.notified o) ∧
      ∀ l, o = .events l → s2.pc t = .wUnlock b (.ok l) := by
    rw [← hno]
    simp only [step, if_pos hlt, hpc1, hord1, if_true, hround]
    split
    · next heq =>
      split at heq
      · cases heq
      · cases heq
    · next heq =>
      split at heq
      · cases heq; exact ⟨_, _, rfl, nofun⟩
      · cases heq
    · next heq =>
      split at heq
      · cases heq
      · cases heq
        exact ⟨_, _, rfl, fun l hl => by cases hl; exact upd_self _ _ _⟩
  obtain ⟨s2, o, hs2, hpc2⟩ := hsw
  have hr2 : Reach c Any s2 (.round t os order s.notified o :: (List.replicate (k + 1) .tau ++ tr)) := .step hr1 trivial hs2
  obtain ⟨l, evs, e, rfl, _, _, hel, hek⟩ := C16.poll_level hr2 fd cu (by rw [hhist]; exact hcur _) (hm.imp id id) hready
  have hpc2 := hpc2 l rfl
  have h4 : step c s2 t .waitUnlock = some ({ s2 with mtx := none, pc := upd s2.pc t (.wFinish b (.ok l)) }, .tau) := by
    simp only [step, if_pos hlt, hpc2]
  have h5 : ∀ s3 : S, s3.pc t = .wFinish b (.ok l) → step c s3 t .waitFinish =
      some ({ s3 with libNotified := false, lib := none, pc := upd s3.pc t .out }, .waitOk t (visible l).length (visible l)) := by
    intro s3 h3
    simp only [step, if_pos hlt, h3]
  have hall : ∃ s3, runActs c s1 [(t, .waitSwap2 order), (t, .waitUnlock), (t, .waitFinish)] =
      some (s3, [.waitOk t (visible l).length (visible l), .tau, .round t os order s.notified (.events l)]) :=
    ⟨_, by
      simp only [runActs, hs2, Option.bind_some, h4,
        h5 { s2 with mtx := none, pc := PollP.upd s2.pc t (.wFinish b (.ok l)) } (upd_self _ _ _), Option.map_some, List.nil_append,
        List.cons_append]
      rfl⟩
  obtain ⟨s3, hs3⟩ := hall
  refine ⟨s3, _, visible l, l, hs3, List.mem_map.2 ⟨e, List.mem_filter.2 ⟨hel, ?_⟩, hek.trans hk⟩⟩
  rw [hek, hk]; simpa using hkey

/-- The run of `seen`, on poll. -/
example : ∃ s tr b, ∃ os : Fd → Flags → Flags, Reach PollEx.cfg Any s tr ∧ s.pc 0 = .wPoll b ∧ Asked (tr.flatMap ofPObs) 7 18 true false .oneshot ∧
    os 7 ((if true then IN ||| PRI else 0#16) ||| (if false then OUT ||| WRBAND else 0#16)) ≠ 0#16 ∧
    decide (os PollEx.cfg.n.readFd PollEx.cfg.n.flags ≠ 0#16) = decide (s.chan > 0) := by
  have hr : (runActs PollEx.cfg (PollP.init PollEx.cfg)
      (PollEx.callActs (.add 7 (Event.onlyReadable 17) .oneshot) ++ PollEx.waitActs (PollEx.os7 IN) [7] ++
        PollEx.callActs (.modify 7 (Event.onlyReadable 18) .oneshot) ++ PollEx.callActs (.add 8 (Event.onlyReadable 27) .oneshot) ++
        PollEx.waitActs (fun fd ask => if fd = 8 then ask &&& IN else 0#16) [7, 8] ++
        [(0, .waitBegin true), (0, .waitLock), (0, .waitSwap), (0, .waitLoad)])).map
      (fun x => (match x.1.pc 0 with | .wPoll b => b | _ => false, x.2.flatMap ofPObs, x.1.chan)) = some (true, seen 0, 0) := by
    decide +kernel
  rw [Option.map_eq_some_iff] at hr
  obtain ⟨⟨s, tr⟩, hr, he⟩ := hr
  simp only [Prod.mk.injEq] at he
  have hreach := reach_run (P := Any) .init _ _ _ (fun _ _ => trivial) hr
  rw [List.append_nil] at hreach
  have hpc : s.pc 0 = .wPoll true := by
    have := he.1
    split at this
    · next h => rw [h, this]
    · cases this
  exact ⟨s, tr, true, PollEx.os7 IN, hreach, hpc, by rw [he.2.1]; exact seen_asked 0, by decide, by rw [he.2.2]; decide⟩

end Polling.C58
