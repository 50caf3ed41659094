import Verif.Spec.WinLayout

/-! What happens to the packets of sockets between the library and the kernel, and what must be true of it. -/

namespace Polling.AfdBytes

open WinSpec

/-- What can be seen. -/
inductive BObs where
  /-- the library asks for these events of this socket with the packet at `a` -/
  | asked (a sock events : Nat)
  /-- it wants to, but the packet is in use -/
  | refused (a : Nat)
  /-- the kernel completes the operation of the packet at `a`; `req` is what it finds in the request then -/
  | answered (a : Nat) (req : Request) (count events status : Nat)
  /-- the library takes the packet at `a` from the port and reads this in it -/
  | taken (a : Nat) (count events status : Nat)
deriving DecidableEq, Repr

/-- A request for these events of this socket: without time limit, not exclusive. -/
def plain (sock events : Nat) : Request := ⟨2 ^ 63 - 1, 1, 0, sock, events, 0⟩

/-- The last question asked with a packet (traces are newest first). -/
def question (a : Nat) : List BObs → Option (Nat × Nat)
  | [] => none
  | .asked a' s e :: tr => if a' = a then some (s, e) else question a tr
  | _ :: tr => question a tr

/-- The last answer the kernel gave with a packet. -/
def answer (a : Nat) : List BObs → Option (Nat × Nat × Nat)
  | [] => none
  | .answered a' _ n e st :: tr => if a' = a then some (n, e, st) else answer a tr
  | _ :: tr => answer a tr

/-- A question was asked with the packet, and the packet was not taken since. -/
def busy (a : Nat) : List BObs → Bool
  | [] => false
  | .asked a' _ _ :: tr => if a' = a then true else busy a tr
  | .taken a' _ _ _ :: tr => if a' = a then false else busy a tr
  | _ :: tr => busy a tr

/-- Every observation is right after those before it. -/
def Right : List BObs → Prop
  | [] => True
  | .asked a _ _ :: tr => busy a tr = false ∧ Right tr
  | .refused a :: tr => busy a tr = true ∧ Right tr
  | .answered a req _ _ _ :: tr => (∃ s e, question a tr = some (s, e) ∧ req = plain s e) ∧ busy a tr = true ∧ Right tr
  | .taken a n e st :: tr => answer a tr = some (n, e, st) ∧ busy a tr = true ∧ Right tr

end Polling.AfdBytes
