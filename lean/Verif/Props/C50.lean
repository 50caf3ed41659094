import Verif.Proof.IocpFLast
import Verif.Props.C49

/-! C50: the buffers of a poll operation are used by one side at a time: the process does not touch them while the kernel may, the
kernel gets what was prepared for it, and `wait` reads what the kernel wrote. -/

namespace Polling.C50
open Iocp IocpSpec IocpM IocpF

/-- The process changes the buffers of a packet only while no operation of the packet is in flight and none is waiting to be
processed, and the kernel only while one is in flight, once. -/
theorem one_side_at_a_time (n : Nat) (f : F) (tr : List IObs) (h : FReach n FAny f tr) (a : FAct) (f' : F) (o : Option IObs)
    (hs : fstep n f a = some (f', o)) (p : PId) (hb : f'.buf p ≠ f.buf p) :
    (∃ r s mask c, a = .write p r ∧ f.m.c.pk p = .socket s ∧ s.op = .inFlight mask c ∧ f.written p = none) ∨
    (∃ fault s, a = .access p fault ∧ f.m.c.pk p = .socket s ∧ s.op = .none) := by
  rcases buf_writes h hs hb with ⟨r, s, mask, c, h1, h2, h3, h4, _⟩ | ⟨fault, s, h1, h2, h3, _⟩
  · exact .inl ⟨r, s, mask, c, h1, h2, h3, h4⟩
  · exact .inr ⟨fault, s, h1, h2, h3⟩

/-- When an operation is given to the kernel, the buffers hold the request: one handle, with the conditions asked for, and the status
is pending. -/
theorem kernel_gets_request (n : Nat) (f : F) (tr : List IObs) (h : FReach n FAny f tr) (a : FAct) (f' : F) (p : PId) (mask : Mask)
    (hs : fstep n f a = some (f', some (.polled p mask))) : f.buf p = { status := .pending, count := 1, events := mask } := by
  obtain ⟨who, s, _, hsec, hx⟩ := (marked hs).1 p mask rfl
  obtain ⟨h1, h2⟩ := input_ready h p who mask (.inr hsec)
  have hok := ((refine_any h).2.sec p who _ hsec).1
  rw [hx] at hok
  have h3 : (f.buf p).status = .pending := hok.2.2.2.2.2
  cases hb : f.buf p with
  | mk st ct evs =>
    rw [hb] at h1 h2 h3
    cases h1; cases h2; cases h3
    rfl

/-- What the result is, in the buffers. -/
def Shows (b : Buf) : PollRes → Prop
  | .cancelled => b.status = .cancelled
  | .error => b.status = .error
  | .ok count events => b.status = .success ∧ b.count = count ∧ b.events = events

/-- From the completion of an operation until `wait` is done with it, its result is in the buffers. -/
theorem result_stays (n : Nat) (f : F) (tr : List IObs) (h : FReach n FAny f tr) (p : PId) (s : Sock) (r : PollRes)
    (hx : f.m.c.pk p = .socket s) (hop : s.op = .done r) : Shows (f.buf p) r := by
  have := (refine_any h).2.buf p s hx
  rw [hop] at this
  have := this.2
  cases r <;> exact this

/-- Every event of a socket is made of the result that the kernel wrote last for this registration. -/
theorem reads_what_was_written (n : Nat) (as : List FAct) (f : F) (h : FSteps n IocpF.init as f) (a : FAct) (f' : F) (fd : Fd) (p : PId)
    (ev : Event EventExtra) (hs : fstep n f a = some (f', some (.deliver true fd p ev))) :
    ∃ r s, lastWrite p as = some r ∧ f.m.c.pk p = .socket s ∧ s.socket = fd ∧
      ev.key = s.interest.key ∧ ev.extra = (rawEvent s.interest.key r).extra ∧
      ev.readable = ((rawEvent s.interest.key r).readable && s.interest.readable) ∧
      ev.writable = ((rawEvent s.interest.key r).writable && s.interest.writable) := by
  obtain ⟨who, s, ev0, old, hsec, hx, rfl, rfl⟩ := (marked hs).2 fd p ev rfl
  obtain ⟨out, hf⟩ := steps_reach h .init
  have hok := ((refine_any hf).2.sec p who _ hsec).1
  rw [hx] at hok
  obtain ⟨_, _, _, r, hop, _, he⟩ := hok
  refine ⟨r, s, (last_result h p).2 r (by rw [hx]; exact hop), hx, rfl, ?_, ?_, ?_, ?_⟩
  · show ev0.key = _
    rw [he]
    unfold rawEvent
    split
    · rfl
    · rfl
    · split <;> rfl
  · show ev0.extra = _; rw [he]
  · show (ev0.readable && _) = _; rw [he]
  · show (ev0.writable && _) = _; rw [he]

/- The hypotheses can be met: the run of `C49` polls and delivers. -/

theorem steps_runF {n} : ∀ {as f f' out}, runF n f as = some (f', out) → FSteps n f as f'
  | [], f, f', out, h => by cases h; exact .nil
  | a :: as, f, f', out, h => by
    obtain ⟨r, h1, h2⟩ := Option.bind_eq_some_iff.1 h
    obtain ⟨q, h3, h4⟩ := Option.map_eq_some_iff.1 h2
    cases h4
    exact .cons (o := r.2) h1 (steps_runF h3)

open C49 in
example : ∃ as f f', FSteps 1 IocpF.init as f ∧
    fstep 1 f (.access 1 none) = some (f', some (.deliver true 7 1 { C49.ev 6 with extra := ⟨RECEIVE⟩ })) ∧
    lastWrite 1 as = some (.ok 1 RECEIVE) := by
  have h : (runF 1 IocpF.init (before ++ middle ++ after.take 6)).bind (fun r => (fstep 1 r.1 (.access 1 none)).map (·.2)) =
    some (some (.deliver true 7 1 { C49.ev 6 with extra := ⟨RECEIVE⟩ })) := by decide +kernel
  obtain ⟨r, hr, h2⟩ := Option.bind_eq_some_iff.1 h
  obtain ⟨q, h3, h4⟩ := Option.map_eq_some_iff.1 h2
  refine ⟨_, r.1, q.1, steps_runF (out := r.2) hr, ?_, by decide +kernel⟩
  rw [h3, ← h4]

open C49 in
example : ∃ as f f', FSteps 1 IocpF.init as f ∧ fstep 1 f (.access 1 none) = some (f', some (.polled 1 0x19b#32)) ∧
    f.buf 1 = { status := .pending, count := 1, events := 0x19b#32 } := by
  have h : (runF 1 IocpF.init (before.take 19)).bind (fun r => (fstep 1 r.1 (.access 1 none)).map (fun q => (q.2, r.1.buf 1))) =
    some (some (.polled 1 0x19b#32), { status := .pending, count := 1, events := 0x19b#32 }) := by decide +kernel
  obtain ⟨r, hr, h2⟩ := Option.bind_eq_some_iff.1 h
  obtain ⟨q, h3, h4⟩ := Option.map_eq_some_iff.1 h2
  refine ⟨_, r.1, q.1, steps_runF (out := r.2) hr, ?_, congrArg (·.2) h4⟩
  have h5 : q.2 = some (.polled 1 0x19b#32) := congrArg (·.1) h4
  rw [h3, ← h5]

-- the kernel writes while `modify` is in its section: the hypotheses of `one_side_at_a_time`
open C49 in
example : (runF 1 IocpF.init (before ++ middle.take 5)).map (fun r => (r.1.buf 1, (r.1.sec 1).isSome)) =
    some ({ status := .success, count := 1, events := RECEIVE }, true) ∧
    (runF 1 IocpF.init (before ++ middle.take 4)).map (fun r => r.1.buf 1) = some { status := .pending, count := 1, events := 0x19b#32 } := by
  decide +kernel

end Polling.C50
