import Verif.Proof.IocpTimeout

/-! C59: a timeout ends the wait: the runs of the IOCP poller, with everything other threads do meanwhile. -/

namespace Polling.C59
open Spec IocpM

/-- An IOCP poller, at any moment of any execution, whatever other threads and the OS do meanwhile.  The latest `wait` was given the timeout
`T`, it is in the backend and no call in it has failed, and `T` has passed since it began, plus the time that its latest entry into the
backend took between the two readings of the clock (`lag`).  If the OS refuses nothing from here on and `GetQueuedCompletionStatusEx` returns
when its timeout is over, then `wait` comes to its end by its own steps, without any more time passing: at the latest after one more round of
the loop, which asks the OS for a wait of no time. -/
theorem iocp_timeout_ends (n : Nat) (P : IocpC.Act → Prop) (s : IocpC.S) (l : List (IocpC.Act × IocpC.Obs))
    (h : Runs (fun s => ∃ now, s = IocpC.init now) (IocpC.step n) P s l) (hin : s.i.phase ≠ .idle ∧ ∀ timed cap, s.i.phase ≠ .top timed cap)
    (hok : ∀ w e, s.i.phase ≠ .fail w e ∧ ∀ batch, s.i.phase ≠ .drain w e batch) (T : Nat) (hT : timeoutOf (l.filterMap IocpC.handT) = some T)
    (hnow : s.now ≤ windowsMaxNs) (hover : T + IocpC.lag l ≤ spent (l.filterMap IocpC.handT)) :
    ∃ acts s' l' m evs, runLog (IocpC.step n) s acts l = some (s', l') ∧ (∀ a ∈ acts, a = .act (.wait none) ∨ a = .act .get ∨ ∃ b, a = .act (.decide b)) ∧
      l'.head?.map (fun x => x.2.1) = some (some (.waitOk m evs)) ∧ s'.now = s.now ∧ s'.i.phase = .idle := by
  have hp : IocpC.past s.i.phase = true := by
    cases hx : s.i.phase <;> first | rfl | exact absurd hx hin.1 | exact absurd hx (hin.2 _ _)
  have hf : s.i.phase.fine := by
    cases hx : s.i.phase <;> first | trivial | exact absurd hx (hok _ _).1 | exact absurd hx ((hok _ _).2 _)
  obtain ⟨acts, s', l', m, evs, h1, h2, h3, h4, h5⟩ := IocpC.ends_past h hp hf hT hnow hover l
  refine ⟨acts, s', l', m, evs, h1, ?_, h3, h4, h5⟩
  intro a ha
  have := h2 a ha
  unfold IocpC.Own at this
  split at this
  · exact .inl rfl
  · exact .inr (.inl rfl)
  · exact .inr (.inr ⟨_, rfl⟩)
  · exact absurd this id

/-- 4.5 milliseconds; the entry into the backend takes three nanoseconds between the readings of the clock; a signal after two milliseconds, and
then one nanosecond; `GetQueuedCompletionStatusEx` returns with nothing when one nanosecond is left, and is asked again.  At that moment `wait`
cannot leave the loop; after the nanosecond it makes one more round. -/
example :
    let go : IocpC.Act := .act (.wait none)
    let start : List IocpC.Act := [.tick 9, .wait (some ⟨4500000, by decide⟩) 8, .remaining, .tick 3, .deadline, go, go, go, .tick 2000000,
      .act (.getFail .interrupted), go, .remaining, .tick 1, .deadline, go, go, go, .tick 2499996, .act .get, go, .act (.decide false), go, go]
    let out : List IocpC.Act := [.act .get, go, .act (.decide true), go]
    let again : List IocpC.Act := [.act .get, go, .act (.decide false), go, go]
    let s0 := IocpC.init 7000
    (runLog (IocpC.step 2) s0 (start ++ out) []).isSome = false ∧
    (runLog (IocpC.step 2) s0 (start ++ [.tick 1] ++ out) []).isSome = false ∧
    ((runLog (IocpC.step 2) s0 (start ++ [.tick 1] ++ again ++ out) []).map fun r => r.1.i.phase) = some .idle ∧
    ((runLog (IocpC.step 2) s0 (start ++ [.tick 1]) []).map fun r =>
      (r.1.i.phase, timeoutOf (r.2.filterMap IocpC.handT), IocpC.lag r.2, spent (r.2.filterMap IocpC.handT), r.1.rem2.map Duration.ns)) =
      some (.port ⟨true, 8, false, 0, []⟩, some 4500000, 1, 4500001, some 1) := by
  refine ⟨?_, ?_, ?_, ?_⟩ <;> decide +kernel

end Polling.C59
