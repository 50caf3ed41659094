import Verif.Model.Lib

/-! C06, the portable part: `notify` calls are coalesced, whatever the backend. -/

namespace Polling.C06
open Lib

variable {X : Type} {sys : Sys X}

/-- `k` calls of `notify`: the results and the poller afterwards. -/
def manyNotifies (p : Poller sys) : Nat → List Res × Poller sys
  | 0 => ([], p)
  | k + 1 => let (r, p) := notify p; let (rs, p) := manyNotifies p k; (r :: rs, p)

theorem manyNotifies_set (p : Poller sys) (h : p.notified = true) (k : Nat) : manyNotifies p k = (List.replicate k .ok, p) := by
  induction k with
  | zero => rfl
  | succ k ih => simp only [manyNotifies, notify, h, Bool.true_eq_false, if_false, ih, List.replicate_succ]

/-- Any number of `notify` calls in a row wake up the backend exactly once if no notification is pending, and not at all
if one is; all but the first return `Ok`; and a notification is pending afterwards. -/
theorem notify_coalesced (p : Poller sys) (k : Nat) :
    manyNotifies p (k + 1) = if p.notified then (List.replicate (k + 1) .ok, p)
      else ((sys.notify p.w).1 :: List.replicate k .ok, ⟨(sys.notify p.w).2, p.locked, true⟩) := by
  cases hn : p.notified with
  | true => rw [if_pos rfl]; exact manyNotifies_set p hn (k + 1)
  | false =>
    rw [if_neg nofun]
    simp only [manyNotifies, notify, hn, if_true]
    rw [manyNotifies_set _ rfl]

/-- The loop leaves the flag as it was if it fails, and clears it if it succeeds. -/
theorem waitLoop_flag (dl : Option Nat) (fuel : Nat) (p : Poller sys) (buf : sys.Buf) (calls : List (Call sys))
    (out : WaitOut sys) (h : waitLoop dl fuel p buf calls = some out) :
    (∀ n, out.res = .ok n → out.p.notified = false) ∧ (∀ e, out.res = .err e → out.p.notified = p.notified) := by
  induction fuel generalizing p buf calls with
  | zero => cases h
  | succ fuel ih =>
    unfold waitLoop at h
    revert h
    split
    simp only
    split
    · split
      · intro h; have := ih _ _ _ h; exact this
      · intro h; cases h; exact ⟨nofun, fun _ _ => rfl⟩
    · intro h; cases h; exact ⟨fun _ _ => rfl, nofun⟩

/-- A `wait` that polls and returns `Ok` consumes the notification - the next `notify` wakes up the backend again; one that
returns an error, or that another thread keeps from polling, does not touch it. -/
theorem wait_consumes (maxNs fuel : Nat) (p : Poller sys) (buf : sys.Buf) (t : Option Duration) (out : WaitOut sys)
    (h : wait maxNs fuel p buf t = some out) :
    (p.locked = true → out.p = p) ∧
    (p.locked = false → ∀ n, out.res = .ok n → out.p.notified = false ∧ notify out.p = ((sys.notify out.p.w).1, ⟨(sys.notify out.p.w).2, out.p.locked, true⟩)) ∧
    (∀ e, out.res = .err e → out.p.notified = p.notified) := by
  unfold wait at h
  split at h
  · next hl => cases h; exact ⟨fun _ => rfl, (fun h => by rw [hl] at h; cases h), nofun⟩
  · next hl =>
    have key : (∀ n, out.res = .ok n → out.p.notified = false) ∧ (∀ e, out.res = .err e → out.p.notified = p.notified) := by
      split at h
      · exact waitLoop_flag _ _ _ _ _ _ h
      · have := waitLoop_flag _ _ _ _ _ _ h; exact this
    refine ⟨fun h => absurd h hl, fun _ n hn => ⟨key.1 n hn, ?_⟩, key.2⟩
    simp only [notify, key.1 n hn, if_true]

/-- A backend that counts the wake-ups. -/
def counting : Sys Unit where
  W := Nat
  Buf := List (Event Unit)
  clock w := (0, w)
  add w _ _ _ := (.ok, w)
  modify w _ _ _ := (.ok, w)
  delete w _ := (.ok, w)
  wait w _ _ := (.ok, w, [])
  notify w := (.ok, w + 1)
  iter b := b
  clear _ := []
  supportsLevel := true
  supportsEdge := true

/-- Three notifications, one wake-up; after a `wait`, another one. -/
example : (manyNotifies (sys := counting) ⟨(0 : Nat), false, false⟩ 3).2.w = (1 : Nat) ∧
    ((wait 100 1 (sys := counting) ⟨(1 : Nat), false, true⟩ [] none).map fun o => ((notify o.p).2.w : Nat)) = some 2 := ⟨rfl, rfl⟩

end Polling.C06
