/-
What a program sees of `wait` and `notify` if it only looks at how many events it got: when a `wait` that was not given a timeout came
back with nothing, and how often `notify` was called.  Independent of any backend.
-/

namespace Polling.Spec

/-- Runs of a machine with what was done and what was observed, newest first, by steps that satisfy `P` only. -/
inductive Runs {S A O : Type} (ini : S → Prop) (next : S → A → Option (S × O)) (P : A → Prop) : S → List (A × O) → Prop
  | init {s} : ini s → Runs ini next P s []
  | step {s l a s' o} : Runs ini next P s l → P a → next s a = some (s', o) → Runs ini next P s' ((a, o) :: l)

/-- What is seen. -/
inductive Hand where
  /-- a `notify` call began -/
  | notify
  /-- a `wait` began, and no other thread was waiting; `limited`: it was given a timeout -/
  | wait (limited : Bool)
  /-- that `wait` returned `Ok(n)` -/
  | back (n : Nat)
deriving DecidableEq, Repr

/-- The latest `wait` was given a timeout. -/
def limited : List Hand → Bool
  | [] => false
  | .wait b :: _ => b
  | _ :: l => limited l

/-- How many `wait`s without a timeout came back with nothing. -/
def emptyBacks : List Hand → Nat
  | [] => 0
  | .back 0 :: l => emptyBacks l + (if limited l then 0 else 1)
  | _ :: l => emptyBacks l

/-- How many `notify` calls were begun. -/
def notifies (l : List Hand) : Nat := l.count .notify

/-- The same with the time that passes; times in nanoseconds. -/
inductive HandT where
  /-- a `notify` call began -/
  | notify
  /-- a `wait` with this timeout began, and no other thread was waiting -/
  | wait (timeout : Option Nat)
  /-- that `wait` returned `Ok(n)` -/
  | back (n : Nat)
  /-- time passed -/
  | pass (dt : Nat)
deriving DecidableEq, Repr

/-- The timeout of the latest `wait`. -/
def timeoutOf : List HandT → Option Nat
  | [] => none
  | .wait t :: _ => t
  | _ :: l => timeoutOf l

/-- The time since the latest `wait` began. -/
def spent : List HandT → Nat
  | [] => 0
  | .wait _ :: _ => 0
  | .pass dt :: l => spent l + dt
  | _ :: l => spent l

/-- The latest `wait` has a timeout, and as much time has passed (or as much as the OS can be asked to wait for, if that is limited). -/
def timeOver (most : Option Nat) (l : List HandT) : Bool :=
  match timeoutOf l with
  | none => false
  | some t => decide (t ≤ spent l) || (match most with | none => false | some m => decide (m ≤ spent l))

/-- How many `wait`s came back with nothing though their time was not over. -/
def earlyBacks (most : Option Nat) : List HandT → Nat
  | [] => 0
  | .back 0 :: l => earlyBacks most l + (if timeOver most l then 0 else 1)
  | _ :: l => earlyBacks most l

/-- How many `notify` calls were begun. -/
def notifiesT (l : List HandT) : Nat := l.count .notify

/-- Without the times. -/
def HandT.plain : HandT → Option Hand
  | .notify => some .notify
  | .wait t => some (.wait t.isSome)
  | .back n => some (.back n)
  | .pass _ => none

end Polling.Spec
