import Verif.Proof.HandRun

/-
Specification: a call that never waits for another thread.  A program makes the call by `start`; its later steps are those that satisfy `own`;
all other steps are those of other threads and of the system.  Steps that satisfy `fine` are those in which the OS refuses nothing.
-/

namespace Polling.Spec

/-- In the state `s` the call can begin.  And however the run goes on from there, with whatever steps of others in between: the call has
returned, or it has made less than `k` steps since and can make the next one, which does not fail. -/
def WaitFree {S A O : Type} (next : S → A → Option (S × O)) (start : A) (own fine : A → Bool) (returned : O → Prop) (k : Nat) (s : S) : Prop :=
  (next s start).isSome = true ∧
  ∀ acts s' l, runLog next s (start :: acts) [] = some (s', l) →
    (∃ x ∈ l, returned x.2) ∨ ((acts.filter own).length < k ∧ ∃ a, own a = true ∧ fine a = true ∧ (next s' a).isSome = true)

end Polling.Spec
