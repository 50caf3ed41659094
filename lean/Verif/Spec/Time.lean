/-
What "rounds up to whole milliseconds" means, independently of any conversion code.
-/

namespace Polling.TimeSpec

/-- `ms` is the least whole number of milliseconds that covers `ns` nanoseconds. -/
def IsCeilMs (ms ns : Nat) : Prop := ns ≤ ms * 1000000 ∧ ∀ m, ns ≤ m * 1000000 → ms ≤ m

/-- The largest time limit, in nanoseconds, that a signed 32-bit millisecond argument can carry. -/
def capI32Ns : Nat := 2147483647 * 1000000

end Polling.TimeSpec
