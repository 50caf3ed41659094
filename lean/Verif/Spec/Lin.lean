import Verif.Spec.Tid

/-
Registration calls of several threads that overlap in time: what results they may have.

The specification is an object that does every call in one moment.  A call begins; at some later moment it looks whether its source is
registered, and enters or removes it; later it returns.  A history of beginnings and results (newest first) is linearizable if it is
one of this object: then the calls can be put into an order, by the moments of their effects, that agrees with real time and in which
each call has the result it would have if the calls were made one after the other.
-/

namespace Polling.Lin

inductive Kind where
  | add | modify | delete
deriving DecidableEq, Repr

inductive Outcome where
  | ok
  /-- the source is registered already -/
  | dup
  /-- the source is not registered -/
  | missing
  /-- any other error: of the OS, or an argument that is not supported -/
  | failed
deriving DecidableEq, Repr

/-- `α`: the sources. -/
inductive Obs (α : Type) where
  | begin (t : Tid) (k : Kind) (x : α)
  | ret (t : Tid) (r : Outcome)
deriving DecidableEq, Repr

/-- What differs between the backends. -/
structure Rules where
  /-- `delete` of a source that is not registered succeeds -/
  deleteAny : Bool := false
  /-- `add` may say that the source is missing, although it entered it, if another call has removed it since -/
  addMissing : Bool := false

/-- The results a call may have, by whether its source was registered before and after its moment, and is now, when it returns.  A call
that fails for another reason may have had its effect. -/
def Allowed (ru : Rules) : Kind → Outcome → (before after now : Bool) → Prop
  | .add, .ok, b, a, _ => b = false ∧ a = true
  | .add, .dup, b, a, _ => b = true ∧ a = true
  | .add, .missing, b, a, n => ru.addMissing = true ∧ b = false ∧ a = true ∧ n = false
  | .add, .failed, b, a, _ => a = b ∨ a = true
  | .modify, .ok, b, a, _ => b = true ∧ a = true
  | .modify, .missing, b, a, _ => b = false ∧ a = false
  | .modify, .failed, b, a, _ => a = b
  | .modify, .dup, _, _, _ => False
  | .delete, .ok, b, a, _ => a = false ∧ (b = true ∨ ru.deleteAny = true)
  | .delete, .missing, b, a, _ => b = false ∧ a = false
  | .delete, .failed, b, a, _ => a = b ∨ a = false
  | .delete, .dup, _, _, _ => False

/-- A call in progress: what it is, and, after its moment, whether the source was registered before and after. -/
structure InCall (α : Type) where
  k : Kind
  x : α
  eff : Option (Bool × Bool)
deriving DecidableEq, Repr

structure State (α : Type) where
  present : α → Bool
  calls : Tid → Option (InCall α)

def put {α β : Type} [DecidableEq α] (f : α → β) (x : α) (v : β) : α → β := fun y => if y = x then v else f y

/-- The histories of the object. -/
inductive Atomic {α : Type} [DecidableEq α] (ru : Rules) : State α → List (Obs α) → Prop
  | init : Atomic ru ⟨fun _ => false, fun _ => none⟩ []
  | begin {st tr t k x} : Atomic ru st tr → st.calls t = none →
      Atomic ru { st with calls := put st.calls t (some ⟨k, x, none⟩) } (.begin t k x :: tr)
  | effect {st tr t k x} (after : Bool) : Atomic ru st tr → st.calls t = some ⟨k, x, none⟩ →
      Atomic ru ⟨put st.present x after, put st.calls t (some ⟨k, x, some (st.present x, after)⟩)⟩ tr
  | ret {st tr t k x b a r} : Atomic ru st tr → st.calls t = some ⟨k, x, some (b, a)⟩ → Allowed ru k r b a (st.present x) →
      Atomic ru { st with calls := put st.calls t none } (.ret t r :: tr)

/-- The history can be explained by calls done one after the other. -/
def Linearizable {α : Type} [DecidableEq α] (ru : Rules) (tr : List (Obs α)) : Prop := ∃ st, Atomic ru st tr

/-- The call that a history says is in progress. -/
def calling {α : Type} : List (Obs α) → Tid → Option (Kind × α)
  | [], _ => none
  | .begin u k x :: tr, t => if t = u then some (k, x) else calling tr t
  | .ret u _ :: tr, t => if t = u then none else calling tr t

/-- How many calls of this kind for the source `x` had this result. -/
def results {α : Type} [DecidableEq α] (k : Kind) (x : α) (r : Outcome) : List (Obs α) → Nat
  | [] => 0
  | .ret t r' :: tr => results k x r tr + (if calling tr t = some (k, x) ∧ r' = r then 1 else 0)
  | _ :: tr => results k x r tr

/-- Every call has returned. -/
def Quiescent {α : Type} (tr : List (Obs α)) : Prop := ∀ t, calling tr t = none

end Polling.Lin
