import Verif.Spec.Hand

/-! A `wait` without a timeout that comes back with nothing has come back before its time. -/

namespace Polling.Spec

theorem limited_plain (l : List HandT) : limited (l.filterMap HandT.plain) = (timeoutOf l).isSome := by
  induction l with
  | nil => rfl
  | cons e l ih => cases e <;> first | exact ih | rfl

theorem notifies_plain (l : List HandT) : notifies (l.filterMap HandT.plain) = notifiesT l := by
  unfold notifies notifiesT
  induction l with
  | nil => rfl
  | cons e l ih => cases e <;> first | exact ih | simp [HandT.plain, ih]

theorem emptyBacks_plain (most : Option Nat) (l : List HandT) : emptyBacks (l.filterMap HandT.plain) ≤ earlyBacks most l := by
  induction l with
  | nil => exact Nat.le_refl _
  | cons e l ih =>
    cases e with
    | notify => exact ih
    | wait t => exact ih
    | pass dt => exact ih
    | back n =>
      cases n with
      | succ n => exact ih
      | zero =>
        show emptyBacks (l.filterMap HandT.plain) + (if limited (l.filterMap HandT.plain) then 0 else 1) ≤
          earlyBacks most l + (if timeOver most l then 0 else 1)
        rw [limited_plain]
        cases h : timeoutOf l with
        | none => simp [timeOver, h]; exact ih
        | some t => simp only [Option.isSome_some, if_true]; split <;> omega

theorem timeOver_pass {most l dt} (h : timeOver most l = true) : timeOver most (.pass dt :: l) = true := by
  unfold timeOver at *
  simp only [timeoutOf, spent]
  cases ht : timeoutOf l with
  | none => rw [ht] at h; cases h
  | some t =>
    rw [ht] at h
    simp only [Bool.or_eq_true, decide_eq_true_eq] at h ⊢
    rcases h with h | h
    · left; exact decide_eq_true (Nat.le_trans h (Nat.le_add_right _ _))
    · right
      cases most with
      | none => cases h
      | some m => simp only [decide_eq_true_eq] at h ⊢; exact decide_eq_true (Nat.le_trans h (Nat.le_add_right _ _))

end Polling.Spec
