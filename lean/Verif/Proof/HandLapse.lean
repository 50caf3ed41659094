import Verif.Proof.HandTimed

/-! Histories with the moments at which the OS gave up on a `wait` because its time was over. -/

namespace Polling.Spec

inductive HandL where
  | see (e : HandT)
  | lapse

def HandL.seen : HandL → Option HandT
  | .see e => some e
  | .lapse => none

/-- The OS has given up on the latest `wait`. -/
def excused : List HandL → Bool
  | [] => false
  | .lapse :: _ => true
  | .see (.wait _) :: _ => false
  | _ :: l => excused l

/-- `wait`s that came back with nothing though the OS had not given up. -/
def unexcused : List HandL → Nat
  | [] => 0
  | .see (.back 0) :: l => unexcused l + (if excused l then 0 else 1)
  | _ :: l => unexcused l

def notifiesL : List HandL → Nat
  | [] => 0
  | .see .notify :: l => notifiesL l + 1
  | _ :: l => notifiesL l

theorem notifiesL_seen (l : List HandL) : notifiesT (l.filterMap HandL.seen) = notifiesL l := by
  unfold notifiesT
  induction l with
  | nil => rfl
  | cons e l ih =>
    cases e with
    | lapse => exact ih
    | see e => cases e <;> simp [HandL.seen, notifiesL, ih]

/-- Whenever the OS has given up, the time is over. -/
inductive Fair (most : Option Nat) : List HandL → Prop
  | nil : Fair most []
  | cons {e l} : Fair most l → (excused (e :: l) = true → timeOver most ((e :: l).filterMap HandL.seen) = true) → Fair most (e :: l)

theorem Fair.excused {most l} (h : Fair most l) (he : excused l = true) : timeOver most (l.filterMap HandL.seen) = true := by
  cases h with
  | nil => cases he
  | cons _ h => exact h he

/-- Then a `wait` that came back early came back though the OS had not given up. -/
theorem early_unexcused {most l} (h : Fair most l) : earlyBacks most (l.filterMap HandL.seen) ≤ unexcused l := by
  induction h with
  | nil => exact Nat.le_refl _
  | @cons e l hf _ ih =>
    cases e with
    | lapse => exact ih
    | see e =>
      cases e with
      | notify => exact ih
      | wait t => exact ih
      | pass dt => exact ih
      | back n =>
        cases n with
        | succ n => exact ih
        | zero =>
          show earlyBacks most (l.filterMap HandL.seen) + (if timeOver most (l.filterMap HandL.seen) then 0 else 1) ≤
            unexcused l + (if Spec.excused l then 0 else 1)
          cases he : Spec.excused l with
          | false => split <;> simp <;> omega
          | true => rw [hf.excused he]; simpa using ih

/-- What is seen without time passing, or a new `wait`, changes nothing about the time. -/
theorem timeOver_notify {most l} : timeOver most (.notify :: l) = timeOver most l := rfl
theorem timeOver_back {most n l} : timeOver most (.back n :: l) = timeOver most l := rfl

theorem Fair.see {most l e} (h : Fair most l) : Fair most (.see e :: l) := by
  refine .cons h fun he => ?_
  cases e with
  | notify => exact h.excused he
  | back n => exact h.excused he
  | pass dt => exact timeOver_pass (h.excused he)
  | wait t => cases he

end Polling.Spec
