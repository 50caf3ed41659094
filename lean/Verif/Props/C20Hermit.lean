import Verif.Model.Hermit
import Verif.Proof.FlagLemmas

/-!
C20 and C36 on Hermit: its own `PollFlags` are used in a way that does not differ from the real ones, so that what is proved of the flags of the
poll backend holds there too.
-/

namespace Polling.C20
open PollFlags

/-- For a single flag, `contains` of Hermit is the real one. -/
theorem hermit_contains (x f : BitVec 16) (k : Nat) (hk : k < 16) (hf : ∀ i, i < 16 → f.getLsbD i = decide (i = k)) :
    Hermit.contains x f = contains x f := by
  rw [Bool.eq_iff_iff, contains_single x f k hk hf]
  show decide (x &&& f ≠ 0#16) = true ↔ _
  rw [decide_eq_true_eq, bv_ne_zero_iff]
  constructor
  · rintro ⟨i, hi, h⟩
    rw [BitVec.getLsbD_and, hf i hi, Bool.and_eq_true, decide_eq_true_eq] at h
    rw [← h.2]; exact h.1
  · intro h
    exact ⟨k, hk, by rw [BitVec.getLsbD_and, hf k hk, h]; simp⟩

/-- For several it is not. -/
theorem hermit_contains_differs : Hermit.contains IN (IN ||| OUT) = true ∧ contains IN (IN ||| OUT) = false := by decide

theorem hermit_intersects (x f : BitVec 16) : Hermit.intersects x f = intersects x f := by
  rw [Bool.eq_iff_iff, intersects_iff]
  show decide (x &&& f ≠ 0#16) = true ↔ _
  rw [decide_eq_true_eq, bv_ne_zero_iff]
  simp only [BitVec.getLsbD_and, Bool.and_eq_true]

/-- The additional information of an event is read and written as on the other systems. -/
theorem hermit_extra : Hermit.extra = (inferInstance : Extra PollB.EventExtra) := by
  have h1 : (fun x : PollB.EventExtra => Hermit.contains x.flags HUP) = fun x => contains x.flags HUP :=
    funext fun x => hermit_contains _ _ 4 (by decide) poll_hup_bit
  have h2 : (fun x : PollB.EventExtra => Hermit.contains x.flags PRI) = fun x => contains x.flags PRI :=
    funext fun x => hermit_contains _ _ 1 (by decide) poll_pri_bit
  have h3 : (fun x : PollB.EventExtra => some (Hermit.contains x.flags ERR)) = fun x => some (contains x.flags ERR) :=
    funext fun x => by rw [hermit_contains _ _ 3 (by decide) poll_err_bit]
  have h4 : (fun x : PollB.EventExtra => some (Hermit.contains x.flags ERR || Hermit.contains x.flags HUP)) =
      fun x => some (contains x.flags ERR || contains x.flags HUP) :=
    funext fun x => by rw [hermit_contains _ _ 3 (by decide) poll_err_bit, hermit_contains _ _ 4 (by decide) poll_hup_bit]
  show (Extra.mk _ _ _ _ _ _ _ : Extra PollB.EventExtra) = Extra.mk _ _ _ _ _ _ _
  rw [h1, h2, h3, h4]
  rfl

/-- The same conditions are asked for, and the same event is made of an answer. -/
theorem hermit_events (ev : Event PollB.EventExtra) (key : Key) (f : Flags) :
    Hermit.pollEvents ev = PollB.pollEvents ev ∧
      Hermit.toEvent key f = if f != 0#16 then some (PollB.toEvent key f) else none := by
  refine ⟨rfl, ?_⟩
  unfold Hermit.toEvent Hermit.isEmpty PollB.toEvent
  rw [hermit_intersects, hermit_intersects]
  by_cases h : f = 0#16
  · simp [h]
  · simp [h]; exact ⟨rfl, rfl⟩

/-- A negative result is an error and no other is; a count is passed on unchanged. -/
theorem hermit_cvt (errno : Nat) (len : Int) :
    (∀ n : Nat, Hermit.cvt errno len = .ok n ↔ len = n) ∧ (Hermit.cvt errno len = .error errno ↔ len < 0) := by
  unfold Hermit.cvt
  by_cases h : len < 0
  · simp only [h, if_true]
    exact ⟨fun n => ⟨fun h => (by cases h), fun e => by omega⟩, by simp⟩
  · simp only [h, if_false, iff_false]
    refine ⟨fun n => ⟨fun e => ?_, fun e => ?_⟩, fun e => by cases e⟩
    · injection e with e; omega
    · rw [e]; rfl

/-- Readable and hung up. -/
example : Hermit.toEvent 5#64 (IN ||| HUP) = some ⟨5#64, true, true, ⟨IN ||| HUP⟩⟩ ∧ Hermit.toEvent 5#64 0#16 = none ∧
    Hermit.cvt 4 (-1) = .error 4 ∧ Hermit.cvt 4 8 = .ok 8 := ⟨by decide, by decide, rfl, rfl⟩

end Polling.C20
