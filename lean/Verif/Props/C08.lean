import Verif.Model.Lib

/-! C08: interruption by signals is invisible. -/

namespace Polling.C08
open Lib

variable {X : Type} {sys : Sys X}

/-- What each backend call made by one `wait()` must look like: with a deadline `d`, the time limit given to
the backend is exactly the time remaining until `d` at the clock reading just before the call. -/
def UsesRemaining (deadline : Option Nat) (c : Call sys) : Prop :=
  match deadline with
  | none => c.timeout = none
  | some d => ∃ now, c.now = some now ∧ ∃ t, c.timeout = some t ∧ t.ns = min (d - now) (durLimit - 1)

theorem waitLoop_spec (deadline : Option Nat) (fuel : Nat) (p : Poller sys) (buf : sys.Buf)
    (calls : List (Call sys)) (out : WaitOut sys) (h : waitLoop deadline fuel p buf calls = some out) :
    out.res ≠ .err .interrupted ∧
    ∃ first rest, out.calls = calls ++ first :: rest ∧
      first.bufIn = buf ∧ UsesRemaining deadline first ∧
      (∀ c ∈ rest, UsesRemaining deadline c ∧ ∃ b, c.bufIn = sys.clear b) := by
  induction fuel generalizing p buf calls with
  | zero => simp [waitLoop] at h
  | succ n ih =>
    unfold waitLoop at h
    have key : ∀ (now : Option Nat) (timeout : Option Duration) (w : sys.W),
        UsesRemaining deadline (⟨now, timeout, buf⟩ : Call sys) →
        (match sys.wait w buf timeout with
          | (.err e, w, buf') =>
            if e = .interrupted then waitLoop deadline n { p with w } (sys.clear buf')
              (calls ++ [⟨now, timeout, buf⟩])
            else some ⟨.err e, { p with w }, buf', calls ++ [⟨now, timeout, buf⟩]⟩
          | (.ok, w, buf') => some ⟨.ok (eventsLen sys buf'), { p with w, notified := false }, buf',
              calls ++ [⟨now, timeout, buf⟩]⟩) = some out →
        out.res ≠ .err .interrupted ∧
        ∃ first rest, out.calls = calls ++ first :: rest ∧
          first.bufIn = buf ∧ UsesRemaining deadline first ∧
          (∀ c ∈ rest, UsesRemaining deadline c ∧ ∃ b, c.bufIn = sys.clear b) := by
      intro now timeout w hu hm
      split at hm
      · next e w' buf' _ =>
        split at hm
        · obtain ⟨hne, f, r, hcalls, hf, hfu, hr⟩ := ih _ _ _ hm
          refine ⟨hne, ⟨now, timeout, buf⟩, f :: r, by rw [hcalls]; simp, rfl, hu, ?_⟩
          intro c hc
          rcases List.mem_cons.1 hc with rfl | hc
          · exact ⟨hfu, buf', hf⟩
          · exact hr c hc
        · next hne =>
          obtain rfl := Option.some.inj hm
          exact ⟨by simpa using hne, ⟨now, timeout, buf⟩, [], rfl, rfl, hu, by simp⟩
      · obtain rfl := Option.some.inj hm
        exact ⟨by simp, ⟨now, timeout, buf⟩, [], rfl, rfl, hu, by simp⟩
    cases deadline with
    | none => exact key none none p.w rfl h
    | some d =>
      refine key _ _ _ ?_ h
      exact ⟨_, rfl, _, rfl, rfl⟩

/-- C08, first half: whatever the backend does, `wait()` never returns `Interrupted`. -/
theorem wait_never_returns_interrupted (maxNs fuel : Nat) (p : Poller sys) (buf : sys.Buf)
    (timeout : Option Duration) (out : WaitOut sys) (h : wait maxNs fuel p buf timeout = some out) :
    out.res ≠ .err .interrupted := by
  unfold Lib.wait at h
  split at h
  · obtain rfl := Option.some.inj h; simp
  · split at h
    · exact (waitLoop_spec _ _ _ _ _ _ h).1
    · exact (waitLoop_spec _ _ _ _ _ _ h).1

/-- C08, second half: with a timeout `t` whose deadline `now₀ + t` is representable, every backend call of
this `wait()` — however many were interrupted before it — is given exactly the time remaining to the
original deadline, the first call gets the user's buffer, and every later call gets a cleared buffer. -/
theorem retries_use_original_deadline (maxNs fuel : Nat) (p : Poller sys) (buf : sys.Buf) (t : Duration)
    (out : WaitOut sys) (hl : p.locked = false) (h : wait maxNs fuel p buf (some t) = some out)
    (hrep : (sys.clock p.w).1 + t.ns ≤ maxNs) :
    ∃ first rest, out.calls = first :: rest ∧ first.bufIn = buf ∧
      UsesRemaining (some ((sys.clock p.w).1 + t.ns)) first ∧
      ∀ c ∈ rest, UsesRemaining (some ((sys.clock p.w).1 + t.ns)) c ∧ ∃ b, c.bufIn = sys.clear b := by
  unfold Lib.wait at h
  simp only [hl, Bool.false_eq_true, if_false, instantCheckedAdd, hrep, if_true] at h
  obtain ⟨_, f, r, hc, h1, h2, h3⟩ := waitLoop_spec _ _ _ _ _ _ h
  exact ⟨f, r, by simpa using hc, h1, h2, h3⟩

/-- C08, no timeout (or one beyond the clock's range): every backend call blocks without limit. -/
theorem retries_without_deadline (maxNs fuel : Nat) (p : Poller sys) (buf : sys.Buf)
    (timeout : Option Duration) (out : WaitOut sys) (hl : p.locked = false)
    (h : wait maxNs fuel p buf timeout = some out)
    (hno : ∀ t, timeout = some t → maxNs < (sys.clock p.w).1 + t.ns) :
    ∀ c ∈ out.calls, c.timeout = none := by
  unfold Lib.wait at h
  simp only [hl, Bool.false_eq_true, if_false] at h
  have : ∃ p', waitLoop none fuel p' buf [] = some out := by
    split at h
    · exact ⟨_, h⟩
    · next t =>
      have := hno t rfl
      have hn : ¬ ((sys.clock p.w).1 + t.ns ≤ maxNs) := by omega
      simp only [instantCheckedAdd, if_neg hn] at h
      exact ⟨_, h⟩
  obtain ⟨p', h'⟩ := this
  obtain ⟨_, f, r, hc, _, h2, h3⟩ := waitLoop_spec _ _ _ _ _ _ h'
  intro c hcm
  rw [hc] at hcm
  rcases List.mem_cons.1 (by simpa using hcm) with rfl | hcm
  · exact h2
  · exact (h3 c hcm).1

/-- One backend call made in world `w` with buffer `buf` under the given deadline. -/
def attempt (deadline : Option Nat) (w : sys.W) (buf : sys.Buf) : Res × sys.W × sys.Buf :=
  match deadline with
  | none => sys.wait w buf none
  | some d => sys.wait (sys.clock w).2 buf (some (saturatingSince d (sys.clock w).1))

/-- The backend answers with something other than `Interrupted` at the `k`-th attempt, each attempt
starting in the world the previous one left and with a cleared buffer. -/
inductive Answers (deadline : Option Nat) : Nat → sys.W → sys.Buf → Res → Prop
  | now {w buf r} : (attempt deadline w buf).1 = r → r ≠ .err .interrupted → Answers deadline 1 w buf r
  | later {w buf r k} : (attempt deadline w buf).1 = .err .interrupted →
      Answers deadline k (attempt deadline w buf).2.1 (sys.clear (attempt deadline w buf).2.2) r →
      Answers deadline (k + 1) w buf r

/-- Every wait ends exactly when the backend stops being interrupted: if the `k`-th attempt is the first one
that is not interrupted, `wait()` makes exactly `k` backend calls and returns that attempt's result. -/
theorem wait_ends_with_first_answer (deadline : Option Nat) (k : Nat) (p : Poller sys) (buf : sys.Buf)
    (calls : List (Call sys)) (r : Res) (h : Answers deadline k p.w buf r) :
    ∃ out, waitLoop deadline k p buf calls = some out ∧ out.calls.length = calls.length + k ∧
      (r = .ok → out.res = .ok (eventsLen sys out.buf)) ∧ (∀ e, r = .err e → out.res = .err e) := by
  induction k generalizing p buf calls with
  | zero => cases h
  | succ n ih =>
    have hstep : ∃ c, waitLoop deadline (n + 1) p buf calls =
        (match attempt deadline p.w buf with
          | (.err e, w, buf') =>
            if e = .interrupted then waitLoop deadline n { p with w } (sys.clear buf') (calls ++ [c])
            else some ⟨.err e, { p with w }, buf', calls ++ [c]⟩
          | (.ok, w, buf') => some ⟨.ok (eventsLen sys buf'), { p with w, notified := false }, buf',
              calls ++ [c]⟩) := by
      cases deadline with
      | none => exact ⟨_, rfl⟩
      | some d => exact ⟨_, rfl⟩
    obtain ⟨c, hstep⟩ := hstep
    rw [hstep]
    cases h with
    | now hr hne =>
      rcases hat : attempt deadline p.w buf with ⟨ra, w, b⟩
      rw [hat] at hr
      simp only at hr
      subst hr
      cases ra with
      | ok => exact ⟨_, rfl, by simp, fun _ => rfl, by simp⟩
      | err e =>
        have : e ≠ .interrupted := by intro h; exact hne (by rw [h])
        simp only [if_neg this]
        exact ⟨_, rfl, by simp, by simp, by simp⟩
    | later hr hl =>
      rcases hat : attempt deadline p.w buf with ⟨ra, w, b⟩
      rw [hat] at hr hl
      simp only at hr
      subst hr
      simp only [if_true]
      obtain ⟨out, h1, h2, h3⟩ := ih { p with w } (sys.clear b) (calls ++ [c]) hl
      exact ⟨out, h1, by rw [h2]; simp; omega, h3⟩

/-- A backend that is interrupted `k` times (world: remaining interruptions, time), each taking 10 ns. -/
def flaky : Sys Unit where
  W := Nat × Nat
  Buf := List (Event Unit)
  clock w := (w.2, w)
  add w _ _ _ := (.ok, w)
  modify w _ _ _ := (.ok, w)
  delete w _ := (.ok, w)
  wait w _ _ := match w.1 with
    | 0 => (.ok, w, [⟨1, true, false, ()⟩])
    | k + 1 => (.err .interrupted, (k, w.2 + 10), [⟨9, true, true, ()⟩])
  notify w := (.ok, w)
  iter b := b
  clear _ := []
  supportsLevel := true
  supportsEdge := true

/-- Two interruptions: three backend calls with 100, 90 and 80 ns left; result: one event. -/
example : (wait (sys := flaky) 1000 10 ⟨((2, 5) : Nat × Nat), false, false⟩ [] (some ⟨100, by decide⟩)).map
    (fun o => (o.res, o.calls.map (fun c => c.timeout.map Duration.ns)))
    = some (.ok 1, [some 100, some 90, some 80]) := by decide

end Polling.C08
