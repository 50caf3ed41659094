import Verif.Model.Layout
import Verif.Spec.AfdBytesTrace

/-!
Any number of packets in the memory of one process: the library polls with them and takes them from the port, the kernel
completes the operations, in any order.  All accesses are those of `Layout`.  A call of `poll` is one step (that no two threads
are in it for one packet at the same time is C26, C50); so is taking a packet and reading the results in it (nobody polls with it
in between, C50).
-/

namespace Polling.AfdBytes

open WinSpec Layout

/-- Who has a packet. (afd.rs:448-490, iocp/port.rs:288-292) -/
inductive Phase where
  | idle
  /-- the kernel, with these arguments -/
  | kernel (k : Ioctl)
  /-- the port -/
  | port (k : Ioctl)

/-- State: the memory, and who has the packet at an address. (afd.rs:439-490) -/
structure S where
  m : Mem
  ph : Nat → Phase

/-- One packet gets another phase. (no counterpart in the code) -/
def set (f : Nat → Phase) (a : Nat) (p : Phase) : Nat → Phase := fun x => if x = a then p else f x

/-- One step.  `P`: the addresses of the packets. (afd.rs:439-490, iocp/port.rs:288-292, iocp/mod.rs:983-1003) -/
inductive Step (c : Cfg) (P : Nat → Prop) : S → BObs → S → Prop where
  /-- afd.rs:439-490 -/
  | poll {s : S} {a sock : Nat} {ev : Iocp.Mask} {k : Ioctl} {m' : Mem} : P a → sock < 256 ^ c.p →
      Layout.poll c s.m a sock ev = (some k, m') → Step c P s (.asked a sock ev.toNat) { m := m', ph := set s.ph a (.kernel k) }
  /-- afd.rs:448-453 -/
  | refuse {s : S} {a sock : Nat} {ev : Iocp.Mask} {m' : Mem} : P a → Layout.poll c s.m a sock ev = (none, m') →
      Step c P s (.refused a) { s with m := m' }
  /-- the kernel completes an operation (OS) -/
  | complete {s : S} {a : Nat} {k : Ioctl} {n st : Nat} {e : Iocp.Mask} {m' : Mem} : s.ph a = .kernel k →
      Completes c.p k n e.toNat st s.m m' →
      Step c P s (.answered a (request c.p s.m k.input) n e.toNat st) { m := m', ph := set s.ph a (.port k) }
  /-- iocp/port.rs:288-292: an entry is taken from the port; iocp/mod.rs:983-1003: it is read -/
  | take {s : S} {a : Nat} {k : Ioctl} : s.ph a = .port k →
      Step c P s (.taken (fromEntry c s.m k.context).1
          (handleCount c (fromEntry c s.m k.context).2 (fromEntry c s.m k.context).1)
          (events c (fromEntry c s.m k.context).2 (fromEntry c s.m k.context).1).toNat
          (status c (fromEntry c s.m k.context).2 (fromEntry c s.m k.context).1))
        { m := (fromEntry c s.m k.context).2, ph := set s.ph a .idle }

/-- At first no packet is in use (afd.rs:603-612), and nobody has one; the rest of the memory is arbitrary. -/
def Init (c : Cfg) (P : Nat → Prop) (s : S) : Prop := (∀ a, P a → s.m (inUseAddr c a) = 0) ∧ ∀ a, s.ph a = .idle

/-- Runs. (no counterpart in the code) -/
inductive Reach (c : Cfg) (P : Nat → Prop) : S → List BObs → Prop where
  | init {s : S} : Init c P s → Reach c P s []
  | step {s s' : S} {tr : List BObs} {o : BObs} : Reach c P s tr → Step c P s o s' → Reach c P s' (o :: tr)

end Polling.AfdBytes
