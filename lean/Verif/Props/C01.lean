import Verif.Model.Lib

/-! C01: the reserved key is refused and refusal changes nothing. -/

namespace Polling.C01
open Lib

variable {X : Type} {sys : Sys X}

/-- The four registration calls of the public API. -/
inductive RegCall where
  | add | addWithMode | modify | modifyWithMode
deriving DecidableEq, Repr

/-- Perform the call (the mode argument is only used by the `_with_mode` variants). -/
def perform (p : Poller sys) : RegCall → Fd → Event X → PollMode → Res × Poller sys
  | .add, fd, e, _ => Lib.add p fd e
  | .addWithMode, fd, e, m => Lib.addWithMode p fd e m
  | .modify, fd, e, _ => Lib.modify p fd e
  | .modifyWithMode, fd, e, m => Lib.modifyWithMode p fd e m

/-- With key `usize::MAX = 2^64 - 1` each call returns InvalidInput and the whole state (registrations, OS
state, pending notification, lock) is unchanged, for every backend and state. -/
theorem reserved_key_refused (p : Poller sys) (c : RegCall) (fd : Fd) (e : Event X) (m : PollMode)
    (hk : e.key.toNat = 2 ^ 64 - 1) : perform p c fd e m = (.err .invalidInput, p) := by
  have : e.key = NOTIFY_KEY := by
    apply BitVec.eq_of_toNat_eq
    rw [hk]; decide
  cases c <;> simp [perform, Lib.add, Lib.modify, Lib.addWithMode, Lib.modifyWithMode, this]

/-- With any other key the call is passed to the backend with source, interest and mode unchanged (the
plain variants ask for one-shot mode), its result is returned, and the notification state is untouched. -/
theorem other_keys_passed_on (p : Poller sys) (c : RegCall) (fd : Fd) (e : Event X) (m : PollMode)
    (hk : e.key.toNat ≠ 2 ^ 64 - 1) :
    ∃ r w, perform p c fd e m = (r, ⟨w, p.locked, p.notified⟩) ∧
      (r, w) = match c with
        | .add => sys.add p.w fd e .oneshot
        | .addWithMode => sys.add p.w fd e m
        | .modify => sys.modify p.w fd e .oneshot
        | .modifyWithMode => sys.modify p.w fd e m := by
  have : e.key ≠ NOTIFY_KEY := by
    intro h
    apply hk
    rw [h]; decide
  cases c <;> (simp [perform, Lib.add, Lib.modify, Lib.addWithMode, Lib.modifyWithMode, this]; exact ⟨_, _, ⟨rfl, rfl⟩, rfl⟩)

/-- Consequently no sequence of registration calls whatsoever ever hands the reserved key to a backend:
the backend sees the same calls with all reserved-key calls removed. -/
theorem reserved_key_never_reaches_backend (p : Poller sys)
    (cs : List (RegCall × Fd × Event X × PollMode)) :
    cs.foldl (fun p c => (perform p c.1 c.2.1 c.2.2.1 c.2.2.2).2) p =
    (cs.filter (fun c => c.2.2.1.key.toNat ≠ 2 ^ 64 - 1)).foldl
      (fun p c => (perform p c.1 c.2.1 c.2.2.1 c.2.2.2).2) p := by
  induction cs generalizing p with
  | nil => rfl
  | cons c cs ih =>
    rw [List.foldl_cons, ih]
    by_cases h : c.2.2.1.key.toNat = 2 ^ 64 - 1
    · rw [List.filter_cons_of_neg (by simpa using h), reserved_key_refused p _ _ _ _ h]
    · rw [List.filter_cons_of_pos (by simpa using h), List.foldl_cons]

/-- The calls that change registrations, with their arguments. -/
inductive Op (X : Type) where
  | reg (c : RegCall) (fd : Fd) (e : Event X) (m : PollMode)
  | delete (fd : Fd)

/-- A poller makes the call. -/
def perform1 (p : Poller sys) : Op X → Res × Poller sys
  | .reg c fd e m => perform p c fd e m
  | .delete fd => Lib.delete p fd

/-- Make the calls one after the other; the results. -/
def runCalls {W O : Type} (f : W → O → Res × W) : W → List O → List Res × W
  | w, [] => ([], w)
  | w, o :: os => ((f w o).1 :: (runCalls f (f w o).2 os).1, (runCalls f (f w o).2 os).2)

/-- What the call should do: with the reserved key nothing; otherwise what the backend does, with one-shot mode in the plain variants. -/
def direct (sys : Sys X) (w : sys.W) : Op X → Res × sys.W
  | .delete fd => sys.delete w fd
  | .reg c fd e m =>
    if e.key.toNat = 2 ^ 64 - 1 then (.err .invalidInput, w)
    else match c with
      | .add => sys.add w fd e .oneshot
      | .addWithMode => sys.add w fd e m
      | .modify => sys.modify w fd e .oneshot
      | .modifyWithMode => sys.modify w fd e m

/-- Every sequence of registration calls and deletions, on every backend and from every state: all results are those of the backend, unchanged, except
for the refusals of the reserved key; the backend ends up as if called directly; and neither the lock nor a pending notification is touched. -/
theorem calls_refine_backend (p : Poller sys) (ops : List (Op X)) :
    runCalls perform1 p ops = ((runCalls (direct sys) p.w ops).1, ⟨(runCalls (direct sys) p.w ops).2, p.locked, p.notified⟩) := by
  induction ops generalizing p with
  | nil => rfl
  | cons o ops ih =>
    have h : perform1 p o = ((direct sys p.w o).1, ⟨(direct sys p.w o).2, p.locked, p.notified⟩) := by
      cases o with
      | delete fd => rfl
      | reg c fd e m =>
        by_cases hk : e.key.toNat = 2 ^ 64 - 1
        · simp only [perform1, direct, if_pos hk]; exact reserved_key_refused p c fd e m hk
        · obtain ⟨r, w, h1, h2⟩ := other_keys_passed_on p c fd e m hk
          simp only [perform1, direct, if_neg hk, h1, ← h2]
    simp only [runCalls, h, ih]

/-- A toy backend that counts the calls that reach it. -/
def counting : Sys Unit where
  W := Nat
  Buf := List (Event Unit)
  clock w := (0, w)
  add w _ _ _ := (.ok, w + 1)
  modify w _ _ _ := (.ok, w + 1)
  delete w _ := (.ok, w)
  wait w b _ := (.ok, w, b)
  notify w := (.ok, w)
  iter b := b
  clear _ := []
  supportsLevel := true
  supportsEdge := true

/-- Both hypotheses are met by concrete events: the reserved key is refused, key 5 reaches the backend. -/
example : (perform (sys := counting) ⟨(0 : Nat), false, true⟩ .add 3 ⟨NOTIFY_KEY, true, false, ()⟩ .level)
      = (.err .invalidInput, ⟨(0 : Nat), false, true⟩) ∧
    (perform (sys := counting) ⟨(0 : Nat), false, true⟩ .add 3 ⟨5, true, false, ()⟩ .level)
      = (.ok, ⟨(1 : Nat), false, true⟩) := ⟨rfl, rfl⟩

/-- A backend that knows one source, 3. -/
def oneSource : Sys Unit := { counting with
  W := Nat
  delete := fun w fd => if fd = 3 then (.ok, w + 1) else (.err .notFound, w) }

/-- A registration, a refusal, a deletion that the backend refuses and one that it accepts. -/
example : (runCalls (perform1 (sys := oneSource)) ⟨(0 : Nat), false, true⟩
      [.reg .add 3 ⟨5, true, false, ()⟩ .level, .reg .modify 3 ⟨NOTIFY_KEY, true, false, ()⟩ .level, .delete 4, .delete 3]).1 =
    [.ok, .err .invalidInput, .err .notFound, .ok] := rfl

end Polling.C01
