import Verif.Spec.Flags

/-! C62: what an event may tell about a source, given the interest in force. -/

namespace Polling.Spec

/-- The program asked for readability (`r`), writability (`w`), urgent data (`p`), and the OS sees an error or a hang-up (`fault`):
an event may say this much, and there may be an event at all only if one of the four holds. -/
structure Within (r w p fault : Prop) (readable writable : Bool) : Prop where
  read : readable = true → r ∨ p ∨ fault
  write : writable = true → w ∨ fault
  some : r ∨ w ∨ p ∨ fault

/-- Error or hang-up is in the word. -/
def Fault {n : Nat} (f : BitVec n) : Prop := Reported f cErr ∨ Reported f cHup

/-- Error, hang-up or "invalid descriptor" is in the word. -/
def PollFault {n : Nat} (f : BitVec n) : Prop := Fault f ∨ Reported f cNval

/-- An interest in nothing allows an event only for an error or a hang-up. -/
theorem Within.silent {fault : Prop} {a b : Bool} (h : Within False False False fault a b) : fault := by
  rcases h.some with h | h | h | h
  · exact h.elim
  · exact h.elim
  · exact h.elim
  · exact h

end Polling.Spec
