/-!
What the Windows kernel reads and writes in an AFD poll, by byte offsets.

These offsets are those of the C declarations of `AFD_POLL_INFO`, `AFD_POLL_HANDLE_INFO`, `IO_STATUS_BLOCK`, `OBJECT_ATTRIBUTES` and
`UNICODE_STRING`; they do not refer to the declarations in the library.
-/

namespace Polling.WinSpec

/-- The memory of the process. -/
abbrev Mem := Nat → Fin 256

/-- The number stored in `n` bytes at `a` (little-endian). -/
def word (m : Mem) : (n a : Nat) → Nat
  | 0, _ => 0
  | n + 1, a => (m a).val + 256 * word m n (a + 1)

/-- The request for one socket. -/
structure Request where
  timeout : Nat
  count : Nat
  exclusive : Nat
  handle : Nat
  events : Nat
  status : Nat
deriving DecidableEq, Repr

/-- The size of `AFD_POLL_INFO` with one handle, for pointers of 4 and of 8 bytes. -/
def infoSize : Nat := 32

/-- What the kernel reads from an `AFD_POLL_INFO` at `a`, with pointers of `p` bytes. -/
def request (p : Nat) (m : Mem) (a : Nat) : Request where
  timeout := word m 8 a
  count := word m 4 (a + 8)
  exclusive := word m 4 (a + 12)
  handle := word m p (a + 16)
  events := word m 4 (a + 16 + p)
  status := word m 4 (a + 20 + p)

/-- The arguments of `NtDeviceIoControlFile` that are addresses or sizes. -/
structure Ioctl where
  /-- `IO_STATUS_BLOCK` -/
  iosb : Nat
  /-- the context, which comes back as `lpOverlapped` -/
  context : Nat
  code : Nat
  input : Nat
  inputLen : Nat
  output : Nat
  outputLen : Nat
deriving DecidableEq, Repr

/-- `x` is one of the `n` bytes at `a`. -/
def Within (x a n : Nat) : Prop := a ≤ x ∧ x < a + n

/-- The kernel completes the operation: it stores the number of handles and the events, and the final status, and writes
nowhere but in the output buffer and the status block (status and information, one pointer each). -/
def Completes (p : Nat) (c : Ioctl) (count events status : Nat) (m m' : Mem) : Prop :=
  word m' 4 (c.output + 8) = count ∧ word m' 4 (c.output + 16 + p) = events ∧ word m' 4 c.iosb = status ∧
  ∀ x, ¬ Within x c.output c.outputLen → ¬ Within x c.iosb (2 * p) → m' x = m x

/-- What the kernel finds in an `OBJECT_ATTRIBUTES`. -/
structure Attributes where
  /-- `Length`, the size of the structure itself: the kernel refuses any other -/
  length : Nat
  root : Nat
  flags : Nat
  security : Nat
  quality : Nat
  /-- UTF-16 -/
  name : List Nat
deriving DecidableEq, Repr

/-- `n` units of UTF-16 at `a`. -/
def wide (m : Mem) : (n a : Nat) → List Nat
  | 0, _ => []
  | n + 1, a => word m 2 a :: wide m n (a + 2)

/-- What the kernel reads from an `OBJECT_ATTRIBUTES` at `a`; every field takes the room of a pointer.  The name is that of the
`UNICODE_STRING` at `ObjectName`: `Length` bytes at `Buffer`. -/
def attributes (p : Nat) (m : Mem) (a : Nat) : Attributes :=
  let u := word m p (a + 2 * p)
  { length := word m 4 a, root := word m p (a + p), flags := word m 4 (a + 3 * p), security := word m p (a + 4 * p), quality := word m p (a + 5 * p)
    name := wide m (word m 2 u / 2) (word m p (u + p)) }

end Polling.WinSpec
