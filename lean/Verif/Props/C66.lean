import Verif.Proof.IocpRepoll

/-
C66: a `wait` that has nothing to report sleeps.

On Windows `wait` asks the OS again about a socket whenever an operation on it completed, and goes on waiting if that made no event;
so a socket whose operations complete at once and never make an event keeps `wait` running.  What it should be: the OS is asked again
about a socket only after an event of it was found, or its registration changed.
-/

namespace Polling.C66
open IocpM IocpSpec Iocp

/-- What the users and the OS do: every registration of a socket asks for reading or writing, and the OS completes an operation
only when a condition holds, or when it was cancelled. -/
def Sensible : S → Act → Prop
  | _, .call _ (.add true _ ev _) | _, .call _ (.modify true _ ev _) => ev.readable = true ∨ ev.writable = true
  | _, .complete _ (.ok n events) => 1 ≤ n ∧ events ≠ 0#32
  | _, .complete _ .error => False
  | _, _ => True

theorem sensible_iff (s a) : Sensible s a ↔ Asking s a := by
  cases a with
  | call t call => cases call with
    | add k _ _ _ => cases k <;> exact Iff.rfl
    | modify k _ _ _ => cases k <;> exact Iff.rfl
    | delete _ _ => exact Iff.rfl
  | complete p r => cases r <;> exact Iff.rfl
  | _ => exact Iff.rfl

theorem reach_imp {n P Q s tr} (h : Reach n P s tr) (hq : ∀ s a, P s a → Q s a) : Reach n Q s tr := by
  induction h with
  | init => exact .init
  | step _ ha hs ih => exact ih.step (hq _ _ ha) hs

/-- **C66 (partial)**: if every registration of a socket asks for reading or writing, the OS is asked about a socket at most once, and once
more for every change of the registration and every event of it that a `wait` found.  (Missing: registrations that ask for neither,
see `iocp_wait_spins`, for which this is false; and operations that fail.) -/
theorem iocp_asks_only_with_reason_partial {n s tr} (h : Reach n Sensible s tr) (p : PId) :
    polls p tr ≤ 1 + changes p tr + deliveries p tr :=
  reach_polls (reach_imp h fun _ _ => (sensible_iff _ _).1) p

/-! ### The negation, for registrations that ask for neither reading nor writing -/

/-- The only thing that happens outside is that the connection was aborted: no errors of the OS, no other conditions, no timeouts. -/
def OnlyAborts : S → Act → Prop
  | _, .complete _ r => r = .ok 1 ABORT
  | _, .go _ fault | _, .wait fault => fault = none
  | _, .getFail _ | _, .decide true => False
  | _, _ => True

/-- In `port.wait`, with an operation on the socket in flight. -/
def Spinning (cap : Nat) (fd : Fd) (ev : Event EventExtra) (mode : PollMode) (s : S) : Prop :=
  s.phase = .port ⟨false, cap + 1, false, 0, []⟩ ∧ s.c.port = [] ∧ s.c.pending = [] ∧
    s.c.pk 1 = .socket ⟨fd, ev, true, mode, false, .polling (eventToAfdMask ev true), true, .inFlight (eventToAfdMask ev true) false⟩

theorem possible_abort (ev : Event EventExtra) : possible (eventToAfdMask ev true) false (.ok 1 ABORT) = true := by
  simp only [possible, beq_iff_eq]
  apply BitVec.eq_of_getLsbD_eq
  intro i hi
  unfold eventToAfdMask
  rw [BitVec.getLsbD_and, BitVec.getLsbD_not, BitVec.getLsbD_or, afd_bits _ _ _ i hi, afd_abort_bit i hi]
  by_cases e : i = 4
  · subst e; simp
  · simp [e]

theorem feed_abort {c : Core} {fd ev mode st u} (hr : ev.readable = false) (hw : ev.writable = false)
    (hx : intersects ABORT ev.extra.flags = false)
    (hk : c.pk 1 = .socket ⟨fd, ev, true, mode, false, st, u, .done (.ok 1 ABORT)⟩) :
    feed c 1 = (.update true fd none, setPk c 1 (.socket ⟨fd, ev, true, mode, false, .idle, false, .none⟩)) := by
  unfold feed
  rw [hk]
  dsimp only
  have hl : isLocalClose (.ok 1 ABORT) = false := by decide
  rw [if_neg (by simp), if_neg (by rw [hl]; simp)]
  unfold filterEvent rawEvent
  dsimp only
  simp [hr, hw, hx]

/-- One lap of the loop of `wait`: the operation completes, makes no event, and is started again. -/
theorem lap {n cap fd ev mode s tr} (h : Reach n OnlyAborts s tr) (hs : Spinning cap fd ev mode s) (hr : ev.readable = false)
    (hw : ev.writable = false) (hx : intersects ABORT ev.extra.flags = false) :
    ∃ s' l, Reach n OnlyAborts s' (l ++ tr) ∧ Spinning cap fd ev mode s' ∧
      l = [.tau, .polled 1 (eventToAfdMask ev true), .popped 1, .tau, .tau, .queued 1, .tau, .tau, .tau, .tau, .tau] := by
  obtain ⟨c, nt, pc, ph, cb, cbp⟩ := s
  obtain ⟨pk, nx, tb, pend, pol, port⟩ := c
  obtain ⟨h1, h2, h3, h5⟩ := hs
  dsimp only at h1 h2 h3 h5
  subst h1 h2 h3
  -- the operation completes
  obtain ⟨pk1, k1, e1⟩ : ∃ pk1, pk1 1 = .socket ⟨fd, ev, true, mode, false, .polling (eventToAfdMask ev true), true, .done (.ok 1 ABORT)⟩ ∧
      Reach n OnlyAborts ⟨⟨pk1, nx, tb, [], pol, [1]⟩, nt, pc, .port ⟨false, cap + 1, false, 0, []⟩, cb, cbp⟩ (.tau :: tr) := by
    refine ⟨_, ?_, h.step (a := .complete 1 (.ok 1 ABORT)) rfl (by simp only [step, h5, possible_abort, if_true, List.nil_append]; rfl)⟩
    simp [setPk]
  have e2 := e1.step (a := .get) (s' := ⟨⟨pk1, nx, tb, [], pol, []⟩, nt, pc, .unpoll ⟨false, cap + 1, false, 0, []⟩ [1], cb, cbp⟩) trivial
    (by simp only [step]; rw [if_pos (by simp)]; simp; rfl)
  have e3 := e2.step (a := .wait none) (s' := ⟨⟨pk1, nx, tb, [], false, []⟩, nt, pc, .feed ⟨false, cap + 1, false, 0, []⟩ [1], cb, cbp⟩) rfl rfl
  -- it makes no event
  obtain ⟨pk2, k2, e4⟩ : ∃ pk2, pk2 1 = .socket ⟨fd, ev, true, mode, false, .idle, false, .none⟩ ∧
      Reach n OnlyAborts ⟨⟨pk2, nx, tb, [], false, []⟩, nt, pc, .feedUpd ⟨false, cap + 1, false, 0, []⟩ [] (.load 1) none, cb, cbp⟩
        (.tau :: .tau :: .tau :: .tau :: tr) := by
    refine ⟨_, ?_, e3.step (a := .wait none) rfl (by
      simp only [step, goWait]
      rw [feed_abort (c := ⟨pk1, nx, tb, [], false, []⟩) hr hw hx k1]
      rfl)⟩
    simp
  have e5 := e4.step (a := .wait none) (s' := ⟨⟨pk2, nx, tb, [], false, []⟩, nt, pc, .feedUpd ⟨false, cap + 1, false, 0, []⟩ [] (.push 1) none, cb, cbp⟩)
    rfl rfl
  have e6 := e5.step (a := .wait none) (s' := ⟨⟨pk2, nx, tb, [1], false, []⟩, nt, pc, .feed ⟨false, cap + 1, false, 0, []⟩ [], cb, cbp⟩)
    rfl rfl
  have e7 := e6.step (a := .decide false) (s' := ⟨⟨pk2, nx, tb, [1], false, []⟩, nt, pc, .start ⟨false, cap + 1, false, 0, []⟩, cb, cbp⟩)
    trivial (by simp [step]; rfl)
  have e8 := e7.step (a := .wait none) (s' := ⟨⟨pk2, nx, tb, [1], true, []⟩, nt, pc, .pop ⟨false, cap + 1, false, 0, []⟩, cb, cbp⟩) rfl rfl
  have e9 := e8.step (a := .wait none) (s' := ⟨⟨pk2, nx, tb, [], true, []⟩, nt, pc, .upd ⟨false, cap + 1, false, 0, []⟩ 1, cb, cbp⟩) rfl rfl
  -- the socket is polled again
  obtain ⟨pk3, k3, e10⟩ : ∃ pk3, pk3 1 = .socket ⟨fd, ev, true, mode, false, .polling (eventToAfdMask ev true), true,
        .inFlight (eventToAfdMask ev true) false⟩ ∧
      Reach n OnlyAborts ⟨⟨pk3, nx, tb, [], true, []⟩, nt, pc, .pop ⟨false, cap + 1, false, 0, []⟩, cb, cbp⟩
        (.polled 1 (eventToAfdMask ev true) :: .popped 1 :: .tau :: .tau :: .queued 1 :: .tau :: .tau :: .tau :: .tau :: .tau :: tr) := by
    refine ⟨_, ?_, e9.step (a := .wait none) rfl (by
      simp only [step, goWait, update, k2]
      rfl)⟩
    simp; rfl
  have e11 := e10.step (a := .wait none) (s' := ⟨⟨pk3, nx, tb, [], true, []⟩, nt, pc, .port ⟨false, cap + 1, false, 0, []⟩, cb, cbp⟩) rfl rfl
  exact ⟨_, _, e11, ⟨rfl, rfl, rfl, k3⟩, rfl⟩

/-- The first lap: the socket is registered, and a `wait` begins. -/
theorem first {cap fd ev mode} (hk : ev.key ≠ NOTIFY_KEY) (hb : ev.extra.flags &&& LOCAL_CLOSE = 0#32) (hm : mode = .oneshot ∨ mode = .level) :
    ∃ s l, Reach 1 OnlyAborts s l ∧ Spinning cap fd ev mode s ∧
      l = [.tau, .polled 1 (eventToAfdMask ev true), .popped 1, .tau, .tau, .waitBegin, .ret 0 (.add true fd ev mode) .ok, .queued 1, .tau,
        .inserted 0 true fd 1 ev mode, .tau, .begin 0 (.add true fd ev mode)] := by
  let call : Call := .add true fd ev mode
  have hedge : edge mode = false := by rcases hm with rfl | rfl <;> rfl
  have e0 : Reach 1 OnlyAborts ⟨init.c, false, fun _ => .out, .idle, [], []⟩ [] := .init
  have e1 := e0.step (a := .call 0 call) (s' := ⟨init.c, false, upd (fun _ => .out) 0 (.prepare call), .idle, [], []⟩) (o := .begin 0 call) trivial
    (by simp [step, call, callBuildable, buildable, hb, reserved, hk, callMode, hedge])
  have e2 := e1.step (a := .go 0 none) (s' := ⟨init.c, false, upd (upd (fun _ => .out) 0 (.prepare call)) 0 (.table call), .idle, [], []⟩) (o := .tau)
    rfl rfl
  obtain ⟨pk, tb, pc, k1, p1, e3⟩ : ∃ pk tb pc, pk 1 = .socket ⟨fd, ev, true, mode, false, .idle, false, .none⟩ ∧ pc 0 = .upd call (.load 1) ∧
      Reach 1 OnlyAborts ⟨⟨pk, 2, tb, [], false, []⟩, false, pc, .idle, [], []⟩ [.inserted 0 true fd 1 ev mode, .tau, .begin 0 call] :=
    ⟨_, _, _, rfl, rfl, e2.step (a := .go 0 none) rfl rfl⟩
  have e4 := e3.step (a := .go 0 none) (s' := ⟨⟨pk, 2, tb, [], false, []⟩, false, upd pc 0 (.upd call (.push 1)), .idle, [], []⟩) (o := .tau) rfl
    (by simp only [step, goCall, p1]; rfl)
  have e5 := e4.step (a := .go 0 none)
    (s' := ⟨⟨pk, 2, tb, [1], false, []⟩, false, upd (upd pc 0 (.upd call (.push 1))) 0 (.ret call .ok), .idle, [], []⟩) (o := .queued 1) rfl rfl
  obtain ⟨pc', e6⟩ : ∃ pc', Reach 1 OnlyAborts ⟨⟨pk, 2, tb, [1], false, []⟩, false, pc', .idle, [], []⟩
      [.ret 0 call .ok, .queued 1, .tau, .inserted 0 true fd 1 ev mode, .tau, .begin 0 call] := ⟨_, e5.step (a := .go 0 none) rfl rfl⟩
  have e7 := e6.step (a := .waitBegin false (cap + 1)) (s' := ⟨⟨pk, 2, tb, [1], false, []⟩, false, pc', .top false (cap + 1), [], []⟩) trivial
    (by simp [step]; rfl)
  have e8 := e7.step (a := .wait none) (s' := ⟨⟨pk, 2, tb, [1], false, []⟩, false, pc', .start ⟨false, cap + 1, false, 0, []⟩, [], []⟩) rfl rfl
  have e9 := e8.step (a := .wait none) (s' := ⟨⟨pk, 2, tb, [1], true, []⟩, false, pc', .pop ⟨false, cap + 1, false, 0, []⟩, [], []⟩) rfl rfl
  have e10 := e9.step (a := .wait none) (s' := ⟨⟨pk, 2, tb, [], true, []⟩, false, pc', .upd ⟨false, cap + 1, false, 0, []⟩ 1, [], []⟩) rfl rfl
  obtain ⟨pk3, k3, e11⟩ : ∃ pk3, pk3 1 = .socket ⟨fd, ev, true, mode, false, .polling (eventToAfdMask ev true), true,
        .inFlight (eventToAfdMask ev true) false⟩ ∧
      Reach 1 OnlyAborts ⟨⟨pk3, 2, tb, [], true, []⟩, false, pc', .pop ⟨false, cap + 1, false, 0, []⟩, [], []⟩
        [.polled 1 (eventToAfdMask ev true), .popped 1, .tau, .tau, .waitBegin, .ret 0 call .ok, .queued 1, .tau,
          .inserted 0 true fd 1 ev mode, .tau, .begin 0 call] := by
    refine ⟨_, ?_, e10.step (a := .wait none) rfl (by
      simp only [step, goWait, update, k1]
      rfl)⟩
    simp; rfl
  have e12 := e11.step (a := .wait none) (s' := ⟨⟨pk3, 2, tb, [], true, []⟩, false, pc', .port ⟨false, cap + 1, false, 0, []⟩, [], []⟩) rfl rfl
  exact ⟨_, _, e12, ⟨rfl, rfl, rfl, k3⟩, rfl⟩

/-- **C66 is false of the code**: register a socket for neither reading nor writing, and not for hang-ups either, in any mode the backend
supports, and let its connection be aborted.  Then a `wait` without a timeout need never sleep again: for every number of times it
may ask the OS again about the socket, each time getting the same answer, without a call, a timeout or an error, and without ever
finding or returning anything. -/
theorem iocp_wait_spins (fd : Fd) (ev : Event EventExtra) (mode : PollMode) (cap : Nat) (hk : ev.key ≠ NOTIFY_KEY) (hr : ev.readable = false)
    (hw : ev.writable = false) (hx : intersects ABORT ev.extra.flags = false) (hb : ev.extra.flags &&& LOCAL_CLOSE = 0#32)
    (hm : mode = .oneshot ∨ mode = .level) (laps : Nat) :
    ∃ s tr, Reach 1 OnlyAborts s tr ∧ begun tr = [.add true fd ev mode] ∧ oneWait tr = true ∧
      polls 1 tr = 1 + laps ∧ changes 1 tr = 0 ∧ deliveries 1 tr = 0 := by
  suffices h : ∃ s tr, Reach 1 OnlyAborts s tr ∧ Spinning cap fd ev mode s ∧ begun tr = [.add true fd ev mode] ∧ oneWait tr = true ∧
      polls 1 tr = 1 + laps ∧ changes 1 tr = 0 ∧ deliveries 1 tr = 0 by
    obtain ⟨s, tr, h1, _, h2⟩ := h
    exact ⟨s, tr, h1, h2⟩
  induction laps with
  | zero =>
    obtain ⟨s, l, h1, h2, h3⟩ := first (cap := cap) (fd := fd) hk hb hm
    refine ⟨s, l, h1, h2, ?_⟩
    rw [h3]
    refine ⟨rfl, ?_, rfl, rfl, rfl⟩
    simp [oneWait]
  | succ laps ih =>
    obtain ⟨s, tr, h1, h2, i1, i2, i3, i4, i5⟩ := ih
    obtain ⟨s', l, h3, h4, h5⟩ := lap h1 h2 hr hw hx
    refine ⟨s', l ++ tr, h3, h4, ?_⟩
    rw [h5]
    refine ⟨?_, ?_, ?_, ?_, ?_⟩
    · simpa [begun] using i1
    · simpa [oneWait] using i2
    · simp only [polls, List.countP_append] at i3 ⊢
      rw [i3]; simp; omega
    · simp only [changes, List.countP_append] at i4 ⊢
      rw [i4]; simp
    · simp only [deliveries, List.countP_append] at i5 ⊢
      rw [i5]; simp

/-! ### Cases -/

-- a million times, for `Event::none(7)`
example : ∃ s tr, Reach 1 OnlyAborts s tr ∧ begun tr = [.add true 5 (Event.none 7) .oneshot] ∧ oneWait tr = true ∧
    polls 1 tr = 1 + 1000000 ∧ changes 1 tr = 0 ∧ deliveries 1 tr = 0 :=
  iocp_wait_spins 5 (Event.none 7) .oneshot 16 (by decide) rfl rfl (by decide) (by decide) (.inl rfl) 1000000

/-- A socket is registered for reading in level mode, found readable twice, and modified; the `wait`s are those of one thread. -/
def busy : List Act :=
  [.call 0 (.add true 5 ⟨7, true, false, ⟨0#32⟩⟩ .level), .go 0 none, .go 0 none, .go 0 none, .go 0 none, .go 0 none,
   .waitBegin false 8, .wait none, .wait none, .wait none, .wait none, .wait none, .complete 1 (.ok 1 RECEIVE), .get, .wait none, .wait none,
   .wait none, .wait none, .decide false, .wait none,
   .waitBegin false 8, .wait none, .wait none, .wait none, .wait none, .wait none, .complete 1 (.ok 1 RECEIVE), .get, .wait none, .wait none,
   .wait none, .wait none, .decide false, .wait none,
   .waitBegin false 8, .wait none, .wait none, .wait none, .wait none, .wait none,
   .call 0 (.modify true 5 ⟨7, true, true, ⟨0#32⟩⟩ .level), .go 0 none, .go 0 none, .go 0 none, .go 0 none, .go 0 none,
   .complete 1 .cancelled, .get, .wait none, .wait none, .wait none, .wait none, .decide false, .wait none, .wait none, .wait none, .wait none]

-- the bound is reached: asked four times, for the registration, two events and a change
example : ∃ s tr, Reach 1 Sensible s tr ∧ polls 1 tr = 4 ∧ changes 1 tr = 1 ∧ deliveries 1 tr = 2 := by
  have hP : ∀ s, ∀ a ∈ busy, Sensible s a := by
    intro s a ha
    simp only [busy, List.mem_cons, List.not_mem_nil, or_false] at ha
    repeat' (first | (rcases ha with rfl | ha) | subst ha)
    all_goals first | trivial | exact .inl rfl | exact ⟨by decide, by decide⟩
  have h : ∃ s tr, runActs 1 init busy = some (s, tr) ∧ polls 1 tr = 4 ∧ changes 1 tr = 1 ∧ deliveries 1 tr = 2 := by
    have e : ((runActs 1 init busy).map fun x => (polls 1 x.2, changes 1 x.2, deliveries 1 x.2)) = some (4, 1, 2) := by decide +kernel
    cases hr : runActs 1 init busy with
    | none => rw [hr] at e; cases e
    | some x =>
      rw [hr] at e
      simp only [Option.map_some, Option.some.injEq, Prod.mk.injEq] at e
      exact ⟨x.1, x.2, rfl, e⟩
  obtain ⟨s, tr, hr, h⟩ := h
  exact ⟨s, tr ++ [], run_reach .init hP hr, by simpa using h⟩

end Polling.C66
