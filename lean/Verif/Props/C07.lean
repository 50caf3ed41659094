import Verif.Model.WaitLock
import Verif.Model.Lib

/-! C07: only one thread polls; other waits return at once. -/

namespace Polling.C07
open WaitLock WaitSpec

variable {B : Type} {len : B → Nat} {clear : B → B}

/-- The thread is between `try_lock` and the release of the lock. -/
def Pc.holds : Pc → Bool
  | .top | .backend | .clear | .ret _ => true
  | _ => false

structure Inv (s : S B) (tr : List (WObs B)) : Prop where
  lock : ∀ t, Pc.holds (s.pc t) = true ↔ s.lock = .held t
  trace : inside tr = match s.lock with | .held t => if (match s.pc t with | .backend => true | _ => false) then [t] else [] | _ => []
  poison : s.lock = .poisoned ↔ everPanicked tr = true

theorem setPc_self (s : S B) (t : Tid) (pc) : (setPc s t pc).pc t = pc := by simp [setPc]
theorem setPc_other (s : S B) {t u : Tid} (pc) (h : u ≠ t) : (setPc s t pc).pc u = s.pc u := by simp [setPc, h]

theorem inv {s : S B} {tr} (h : Reach len clear s tr) : Inv s tr := by
  induction h with
  | init buf => exact ⟨fun t => by simp [init, Pc.holds], rfl, by simp [init, everPanicked]⟩
  | @step s tr a s' o hr hs ih =>
    -- a step of `t` that leaves the lock alone
    have keep : ∀ t pc (b : Tid → B) (nt : Bool), s' = { setPc s t pc with buf := b, notified := nt } → Pc.holds pc = Pc.holds (s.pc t) →
        inside (o :: tr) = (match s.lock with | .held u => if (match (setPc s t pc).pc u with | .backend => true | _ => false) then [u] else [] | _ => []) →
        everPanicked (o :: tr) = everPanicked tr → Inv s' (o :: tr) := by
      intro t pc b nt e h1 h2 h3
      subst e
      refine ⟨fun u => ?_, h2, by rw [h3]; exact ih.poison⟩
      show Pc.holds ((setPc s t pc).pc u) = true ↔ s.lock = .held u
      by_cases hu : u = t
      · subst hu; rw [setPc_self, h1]; exact ih.lock u
      · rw [setPc_other s pc hu]; exact ih.lock u
    have other : ∀ t pc, (∀ u, s.lock = .held u → u ≠ t) → inside tr = 
        (match s.lock with | .held u => if (match (setPc s t pc).pc u with | .backend => true | _ => false) then [u] else [] | _ => []) := by
      intro t pc h
      rw [ih.trace]
      cases hl : s.lock with
      | held u => dsimp only; rw [setPc_other s pc (h u hl)]
      | _ => rfl
    have notHeld : ∀ t, Pc.holds (s.pc t) = false → ∀ u, s.lock = .held u → u ≠ t := by
      intro t h u hu e
      subst e
      rw [(ih.lock u).2 hu] at h; cases h
    cases a with
    | waitCall t =>
      simp only [step] at hs
      split at hs <;> cases hs
      next hp => exact keep t .lock _ _ rfl (by rw [hp]; rfl) (other _ _ (notHeld t (by rw [hp]; rfl))) rfl
    | notifyCall t =>
      simp only [step] at hs
      split at hs
      · next hp =>
        split at hs <;> cases hs
        · exact keep t .notify _ _ rfl (by rw [hp]; rfl) (other _ _ (notHeld t (by rw [hp]; rfl))) rfl
        · exact ⟨ih.lock, ih.trace, ih.poison⟩
      · cases hs
    | registerCall t =>
      simp only [step] at hs
      split at hs <;> cases hs
      exact ⟨ih.lock, ih.trace, ih.poison⟩
    | woken t r =>
      simp only [step] at hs
      split at hs <;> cases hs
      next hp => exact keep t .out _ _ rfl (by rw [hp]; rfl) (other _ _ (notHeld t (by rw [hp]; rfl))) rfl
    | go t =>
      simp only [step] at hs
      split at hs
      · next hp =>
        split at hs
        · next hl =>
          cases hs
          refine ⟨fun u => ?_, ?_, ?_⟩
          · show Pc.holds ((setPc s t .top).pc u) = true ↔ Lock.held t = .held u
            by_cases hu : u = t
            · subst hu; rw [setPc_self]; simp [Pc.holds]
            · rw [setPc_other s _ hu, ih.lock u, hl]
              simp [Ne.symm hu]
          · show inside tr = _
            rw [ih.trace, hl]
            show [] = if (match (setPc s t Pc.top).pc t with | .backend => true | _ => false) = true then [t] else []
            rw [setPc_self]; rfl
          · have := ih.poison
            rw [hl] at this
            simpa [everPanicked] using this
        · cases hs
          exact keep t .out _ _ rfl (by rw [hp]; rfl) (other _ _ (notHeld t (by rw [hp]; rfl))) rfl
      · next hp =>
        cases hs
        have hl := (ih.lock t).1 (by rw [hp]; rfl)
        refine keep t .backend _ _ rfl (by rw [hp]; rfl) ?_ rfl
        have := ih.trace
        rw [hl] at this ⊢
        dsimp only at this ⊢
        rw [hp] at this
        rw [setPc_self]
        show t :: inside tr = [t]
        rw [this]; rfl
      · next hp =>
        cases hs
        have hl := (ih.lock t).1 (by rw [hp]; rfl)
        refine keep t _ _ _ rfl (by rw [hp]; rfl) ?_ rfl
        have := ih.trace
        rw [hl] at this ⊢
        dsimp only at this ⊢
        rw [hp] at this
        rw [setPc_self]
        exact this
      · next r hp =>
        cases hs
        have hl := (ih.lock t).1 (by rw [hp]; rfl)
        have ht := ih.trace
        rw [hl] at ht
        dsimp only at ht
        rw [hp] at ht
        refine ⟨fun u => ?_, ht, ?_⟩
        · show Pc.holds ((setPc s t .out).pc u) = true ↔ Lock.free = .held u
          by_cases hu : u = t
          · subst hu; rw [setPc_self]; simp [Pc.holds]
          · rw [setPc_other s _ hu, ih.lock u, hl]
            simp [Ne.symm hu]
        · have := ih.poison
          rw [hl] at this
          simpa [everPanicked] using this
      · cases hs
    | done t r b =>
      simp only [step] at hs
      split at hs
      rotate_left
      · cases hs
      next hp =>
      have hl := (ih.lock t).1 (by rw [hp]; rfl)
      have ht : inside tr = [t] := by
        have := ih.trace
        rw [hl] at this
        dsimp only at this
        rw [hp] at this
        exact this
      have left : ∀ pc, Pc.holds pc = true → (∀ x, pc = x → (match pc with | .backend => true | _ => false) = false) → ∀ b', s' = setBuf (setPc s t pc) t b' → o = .leave t → Inv s' (o :: tr) := by
        intro pc h1 h2 b' e1 e2
        refine keep t pc _ s.notified e1 (by rw [h1, hp]; rfl) ?_ (by rw [e2]; rfl)
        rw [e2, hl]
        dsimp only
        rw [setPc_self, h2 _ rfl]
        show (inside tr).erase t = []
        rw [ht]; simp
      split at hs
      · cases hs; exact left .clear rfl (fun _ _ => rfl) _ rfl rfl
      · cases hs; exact left .top rfl (fun _ _ => rfl) _ rfl rfl
      · cases hs; exact left (.ret _) rfl (fun _ _ => rfl) _ rfl rfl
      · cases hs
        refine ⟨fun u => ?_, ?_, by simp [everPanicked]⟩
        · show Pc.holds ((setPc s t .out).pc u) = true ↔ Lock.poisoned = .held u
          by_cases hu : u = t
          · subst hu; rw [setPc_self]; simp [Pc.holds]
          · rw [setPc_other s _ hu, ih.lock u, hl]
            simp [Ne.symm hu]
        · show (inside tr).erase t = []
          rw [ht]; simp

/-- For any number of threads, every interleaving and every backend: at most one thread is inside the backend's `wait`. -/
theorem one_thread_polls (s : S B) (tr : List (WObs B)) (h : Reach len clear s tr) : (inside tr).length ≤ 1 := by
  rw [(inv h).trace]
  split
  · split <;> simp
  · simp

/-- A `wait` that finds another thread in `wait` returns `Ok(0)` in its next step - it cannot be blocked - and this step
changes nothing: neither the buffers (the one of the call and all others), nor the `notified` flag, nor the lock, nor what
any other thread does; and the backend is not called. -/
theorem second_wait_returns (s : S B) (tr : List (WObs B)) (h : Reach len clear s tr) (t u : Tid) (hu : u ∈ inside tr) (ht : s.pc t = .lock) :
    ∃ s', step len clear s (.go t) = some (s', .waitRet t (.ok 0) (s.buf t)) ∧ s'.buf = s.buf ∧ s'.notified = s.notified ∧ s'.lock = s.lock ∧
      s'.pc t = .out ∧ ∀ v, v ≠ t → s'.pc v = s.pc v := by
  have hi := inv h
  have hl : ∃ v, s.lock = .held v := by
    have := hi.trace
    split at this
    · exact ⟨_, by assumption⟩
    · rw [this] at hu; cases hu
  obtain ⟨v, hl⟩ := hl
  refine ⟨setPc s t .out, ?_, rfl, rfl, rfl, setPc_self _ _ _, fun v hv => setPc_other _ _ hv⟩
  simp only [step, ht, hl]

/-- The lock is not leaked: unless the backend has panicked, a `wait` that is called when no other thread is between the
acquisition and the release of the lock gets it and enters the backend. -/
theorem wait_gets_through (s : S B) (tr : List (WObs B)) (h : Reach len clear s tr) (t : Tid) (ht : s.pc t = .lock)
    (hno : everPanicked tr = false) (hfree : ∀ u, Pc.holds (s.pc u) = false) :
    ∃ s1 s2, step len clear s (.go t) = some (s1, .tau) ∧ step len clear s1 (.go t) = some (s2, .enter t) := by
  have hi := inv h
  have hl : s.lock = .free := by
    cases hl : s.lock with
    | free => rfl
    | held u => have := (hi.lock u).2 hl; rw [hfree u] at this; cases this
    | poisoned => rw [hi.poison.1 hl] at hno; cases hno
  refine ⟨{ setPc s t .top with lock := .held t }, setPc { setPc s t .top with lock := .held t } t .backend, ?_, ?_⟩
  · simp only [step, ht, hl]
  · simp only [step, setPc_self]

/-- A buffer is changed only by the `wait` of its own thread, while or right after it is in the backend; the flag is cleared
only by the thread whose wait succeeded, while it holds the lock. -/
theorem who_changes_what (s s' : S B) (tr : List (WObs B)) (h : Reach len clear s tr) (a : Act B) (o) (hs : step len clear s a = some (s', o)) :
    (∀ t, s'.buf t ≠ s.buf t → t ∈ inside tr) ∧
    (s.notified = true → s'.notified = false → ∃ t, s.pc t = .clear ∧ s.lock = .held t ∧ a = .go t) := by
  have hi := inv h
  have same : s'.buf = s.buf → ∀ t, s'.buf t ≠ s.buf t → t ∈ inside tr := fun e t ht => absurd (congrFun e t) ht
  cases a with
  | done t r b =>
    simp only [step] at hs
    split at hs
    rotate_left
    · cases hs
    next hp =>
    have hl := (hi.lock t).1 (by rw [hp]; rfl)
    have ht : inside tr = [t] := by
      have := hi.trace
      rw [hl] at this
      dsimp only at this
      rw [hp] at this
      exact this
    have hb : ∀ b' u, (setBuf s t b').buf u ≠ s.buf u → u ∈ inside tr := by
      intro b' u hu
      rw [ht]
      by_cases h : u = t
      · simp [h]
      · simp [setBuf, h] at hu
    split at hs <;> cases hs
    · exact ⟨hb b, fun h1 h2 => by rw [show (setBuf (setPc s t Pc.clear) t b).notified = s.notified from rfl, h1] at h2; cases h2⟩
    · exact ⟨hb (clear b), fun h1 h2 => by rw [show (setBuf (setPc s t Pc.top) t (clear b)).notified = s.notified from rfl, h1] at h2; cases h2⟩
    · exact ⟨hb b, fun h1 h2 => by simp only [setBuf, setPc] at h2; rw [h1] at h2; cases h2⟩
    · exact ⟨hb b, fun h1 h2 => by simp only [setBuf, setPc] at h2; rw [h1] at h2; cases h2⟩
  | go t =>
    simp only [step] at hs
    repeat' split at hs
    all_goals cases hs
    all_goals refine ⟨same rfl, fun h1 h2 => ?_⟩
    all_goals first
      | exact ⟨t, by assumption, (hi.lock t).1 (by simp only [*]; rfl), rfl⟩
      | (simp only [setPc] at h2; rw [h1] at h2; cases h2)
  | _ =>
    simp only [step] at hs
    repeat' split at hs
    all_goals cases hs
    all_goals exact ⟨same rfl, fun h1 h2 => by first | (rw [h1] at h2; cases h2) | cases h2 | (simp only [setPc] at h2; rw [h1] at h2; cases h2)⟩

/-- If the backend panics inside `wait`, the lock is poisoned: from then on no `wait` ever polls again, every one returns
`Ok(0)` at once, without an error. -/
theorem after_panic (s : S B) (tr : List (WObs B)) (h : Reach len clear s tr) (hp : everPanicked tr = true) (t : Tid) (ht : s.pc t = .lock) :
    inside tr = [] ∧ ∃ s', step len clear s (.go t) = some (s', .waitRet t (.ok 0) (s.buf t)) := by
  have hi := inv h
  have hl := hi.poison.2 hp
  refine ⟨by rw [hi.trace, hl], setPc s t .out, ?_⟩
  simp only [step, ht, hl]

/-- Two threads: the second `wait` returns while the first is inside; after the first returned, the second gets through. -/
example : ((runActs List.length (fun _ => []) (init (B := List Nat) fun _ => [])
    [.waitCall 0, .go 0, .waitCall 1, .go 0, .go 1, .notifyCall 1, .woken 1 .ok, .done 0 .ok [5], .go 0, .go 0, .waitCall 1, .go 1, .go 1]).map fun r =>
      (inside r.2, r.1.notified, r.1.buf 0)) = some ([1], false, [5]) := by decide

/-- The hypotheses of `second_wait_returns` are met: one thread is inside, the other at `try_lock`. -/
example : ((runActs List.length (fun _ => []) (init (B := List Nat) fun _ => []) [.waitCall 0, .waitCall 1, .go 0, .go 0]).map fun r =>
      (inside r.2, match r.1.pc 1 with | .lock => true | _ => false)) = some ([0], true) := by decide

/-- Single-threaded view, with time limits (Model/Lib.lean): a `wait` whose `try_lock` fails changes nothing at all, reads no
clock and makes no call of the backend. -/
theorem locked_wait {X : Type} {sys : Sys X} (maxNs fuel : Nat) (p : Lib.Poller sys) (buf : sys.Buf) (timeout : Option Duration) (h : p.locked = true) :
    Lib.wait maxNs fuel p buf timeout = some ⟨.ok 0, p, buf, []⟩ := by
  unfold Lib.wait; rw [if_pos h]

end Polling.C07
