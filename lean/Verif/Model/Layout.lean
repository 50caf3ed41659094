import Verif.Model.Flags
import Verif.Spec.WinLayout

/-!
The structures that the library shares with the Windows kernel, byte by byte: the `repr(C)` layout of `AfdPollInfo` and
`IoStatusBlock`, and what `Afd::poll`, `Afd::cancel` and the readers of the results store and load.

The layout of `PacketInner` (an enum of Rust, iocp/mod.rs:725-753) is not defined by the language; it is a parameter: its size and
alignment, and the offset of the `AfdPollInfo` in it.
-/

namespace Polling.Layout

open WinSpec (Mem word Ioctl)

/-- Size and alignment of a type. (`std::alloc::Layout`; used by afd.rs:31, 46, 572) -/
structure Lay where
  size : Nat
  align : Nat
deriving DecidableEq, Repr

/-- The next multiple of `a` (rules of `repr(C)`, no counterpart in the code) -/
def up (n a : Nat) : Nat := (n + a - 1) / a * a

/-- Offsets of fields from `o` on, and the end of the last one. (rules of `repr(C)`: afd.rs:31, 46, 572) -/
def place : List Lay → Nat → List Nat × Nat
  | [], o => ([], o)
  | f :: fs, o => (up o f.align :: (place fs (up o f.align + f.size)).1, (place fs (up o f.align + f.size)).2)

/-- The largest alignment. (rules of `repr(C)`: afd.rs:31, 46, 572) -/
def maxAlign (fs : List Lay) : Nat := fs.foldl (fun a f => max a f.align) 1

/-- A `repr(C)` structure. (rules of `repr(C)`: afd.rs:31, 46, 572) -/
def reprC (fs : List Lay) : Lay := ⟨up (place fs 0).2 (maxAlign fs), maxAlign fs⟩

/-- The offset of field number `i`. (rules of `repr(C)`: afd.rs:31, 46, 572) -/
def off (fs : List Lay) (i : Nat) : Nat := (place fs 0).1.getD i 0

/-- A `repr(C)` union. (windows-sys: `IO_STATUS_BLOCK_0`, used at afd.rs:473) -/
def union (fs : List Lay) : Lay := ⟨up (fs.foldl (fun a f => max a f.size) 0) (maxAlign fs), maxAlign fs⟩

/-- `u32`, `NTSTATUS`, `AfdPollMask` (afd.rs:37-40, 52-55, 79) -/
def u32 : Lay := ⟨4, 4⟩
/-- `i64` (afd.rs:34) -/
def i64 : Lay := ⟨8, 8⟩
/-- `bool` (afd.rs:578 `AtomicBool`) -/
def bool : Lay := ⟨1, 1⟩
/-- pointers, `usize`, `HANDLE`, of `p` bytes (afd.rs:49) -/
def ptr (p : Nat) : Lay := ⟨p, p⟩

/-- afd.rs:46-56 `AfdPollHandleInfo`: handle, events, status -/
def handleInfo (p : Nat) : List Lay := [ptr p, u32, u32]
/-- afd.rs:30-44 `AfdPollInfo`: timeout, handle_count, exclusive, handles (an array of one) -/
def info (p : Nat) : List Lay := [i64, u32, u32, reprC (handleInfo p)]
/-- `IO_STATUS_BLOCK`: status or pointer, information (windows-sys; used at afd.rs:575) -/
def ioStatus (p : Nat) : List Lay := [union [u32, ptr p], ptr p]
/-- afd.rs:570-588 `IoStatusBlock<T>`: iosb, in_use, data, _marker -/
def block (p : Nat) (data : Lay) : List Lay := [reprC (ioStatus p), bool, data, ⟨0, 1⟩]

/-- Stores `v` in `n` bytes at `a` (little-endian). (an assignment to a field, afd.rs:460-465) -/
def put (m : Mem) (n a v : Nat) : Mem := fun x =>
  if a ≤ x ∧ x < a + n then ⟨v / 256 ^ (x - a) % 256, Nat.mod_lt _ (by decide)⟩ else m x

/-- Where things are: pointers of `p` bytes, the layout of `PacketInner`, and the offset of the `AfdPollInfo` in a packet of a
socket. (iocp/mod.rs:725-753) -/
structure Cfg where
  p : Nat
  data : Lay
  infoOff : Nat

/-- afd.rs:470, 513 and iocp/port.rs:95-97, 103-105: the pointer to the packet, cast to one to its status block. -/
def iosbAddr (a : Nat) : Nat := a
/-- afd.rs:578 `in_use` of the packet at `a` -/
def inUseAddr (c : Cfg) (a : Nat) : Nat := a + off (block c.p c.data) 1
/-- iocp/mod.rs:775-782, afd.rs:624-628 `afd_info` of the packet at `a` -/
def infoAddr (c : Cfg) (a : Nat) : Nat := a + off (block c.p c.data) 2 + c.infoOff
/-- Field `i` of `handles[0]` of the info at `b`. (afd.rs:43, 463-465) -/
def handleField (p b i : Nat) : Nat := b + off (info p) 3 + off (handleInfo p) i

/-- `STATUS_PENDING` (windows-sys; used at afd.rs:473) -/
def STATUS_PENDING : Nat := 0x103
/-- afd.rs:445 `IOCTL_AFD_POLL` -/
def IOCTL_AFD_POLL : Nat := 0x00012024

/-- afd.rs:456-468: fills in the request for the socket, at `b`. -/
def fill (p : Nat) (m : Mem) (b sock : Nat) (events : Iocp.Mask) : Mem :=
  -- line 460
  let m := put m 4 (b + off (info p) 2) 0
  -- line 461
  let m := put m 4 (b + off (info p) 1) 1
  -- line 462
  let m := put m 8 (b + off (info p) 0) (2 ^ 63 - 1)
  -- line 463
  let m := put m p (handleField p b 0) sock
  -- line 464
  let m := put m 4 (handleField p b 2) 0
  -- line 465
  put m 4 (handleField p b 1) events.toNat

/-- afd.rs:640-642 `try_lock`: whether it succeeds. -/
def tryLock (c : Cfg) (m : Mem) (a : Nat) : Bool × Mem :=
  (decide (m (inUseAddr c a) = 0), put m 1 (inUseAddr c a) 1)

/-- afd.rs:644-646 `unlock`. -/
def unlock (c : Cfg) (m : Mem) (a : Nat) : Mem := put m 1 (inUseAddr c a) 0

/-- afd.rs:439-490 `poll` of the packet at `a`, up to the system call, whose arguments are the result; `none`: the packet is in
use (lines 448-453).  The library `ntdll` is loaded already (line 476). -/
def poll (c : Cfg) (m : Mem) (a sock : Nat) (events : Iocp.Mask) : Option Ioctl × Mem :=
  let (ok, m) := tryLock c m a
  if ok then
    let b := infoAddr c a
    let m := fill c.p m b sock events
    -- lines 470-474
    let m := put m 4 (iosbAddr a + off (ioStatus c.p) 0) STATUS_PENDING
    (some { iosb := iosbAddr a, context := iosbAddr a, code := IOCTL_AFD_POLL, input := b, inputLen := (reprC (info c.p)).size,
            output := b, outputLen := (reprC (info c.p)).size }, m)
  else (none, m)

/-- afd.rs:513-517: whether `cancel` finds the operation pending. -/
def pending (c : Cfg) (m : Mem) (a : Nat) : Bool := decide (word m 4 (iosbAddr a + off (ioStatus c.p) 0) = STATUS_PENDING)

/-- iocp/mod.rs:983-986: the status that `feed_event` reads -/
def status (c : Cfg) (m : Mem) (a : Nat) : Nat := word m 4 (iosbAddr a + off (ioStatus c.p) 0)

/-- afd.rs:69-71 `handle_count` of the packet at `a` -/
def handleCount (c : Cfg) (m : Mem) (a : Nat) : Nat := word m 4 (infoAddr c a + off (info c.p) 1)

/-- afd.rs:73-75 `events` of the packet at `a` -/
def events (c : Cfg) (m : Mem) (a : Nat) : Iocp.Mask := BitVec.ofNat 32 (word m 4 (handleField c.p (infoAddr c a) 1))

/-- iocp/port.rs:288-292 `OverlappedEntry::packet`: the packet of an entry, unlocked. -/
def fromEntry (c : Cfg) (m : Mem) (lpOverlapped : Nat) : Nat × Mem := (lpOverlapped, unlock c m lpOverlapped)

/-- afd.rs:369-386 `AFD_NAME`, UTF-16 -/
def afdName : List Nat := "\\Device\\Afd\\Smol\x00".toList.map Char.toNat

/-- afd.rs:389-393: `Length` of the `UNICODE_STRING` given to `NtCreateFile`, in bytes -/
def afdNameLength : Nat := 2 * afdName.length

/-- `u16` (afd.rs:369, 390-391) -/
def u16 : Lay := ⟨2, 2⟩
/-- `UNICODE_STRING`: Length, MaximumLength, Buffer (windows-sys; used at afd.rs:389-393) -/
def unicode (p : Nat) : List Lay := [u16, u16, ptr p]
/-- `OBJECT_ATTRIBUTES`: Length, RootDirectory, ObjectName, Attributes, SecurityDescriptor, SecurityQualityOfService
(windows-sys; used at afd.rs:394-401) -/
def objAttr (p : Nat) : List Lay := [u32, ptr p, ptr p, u32, ptr p, ptr p]

/-- The constant `AFD_NAME` in memory. (afd.rs:369-386) -/
def putWide (m : Mem) : List Nat → (a : Nat) → Mem
  | [], _ => m
  | v :: l, a => put (putWide m l (a + 2)) 2 a v

/-- afd.rs:369-401: the name at `n` (a constant), the string at `u` and the attributes at `o` (both on the stack). -/
def openAttr (p : Nat) (m : Mem) (n u o : Nat) : Mem :=
  let m := putWide m afdName n
  -- lines 390-392
  let m := put m 2 (u + off (unicode p) 0) (afdNameLength % 2 ^ 16)
  let m := put m 2 (u + off (unicode p) 1) (afdNameLength % 2 ^ 16)
  let m := put m p (u + off (unicode p) 2) n
  -- lines 395-400
  let m := put m 4 (o + off (objAttr p) 0) ((reprC (objAttr p)).size % 2 ^ 32)
  let m := put m p (o + off (objAttr p) 1) 0
  let m := put m p (o + off (objAttr p) 2) u
  let m := put m 4 (o + off (objAttr p) 3) 0
  let m := put m p (o + off (objAttr p) 4) 0
  put m p (o + off (objAttr p) 5) 0

end Polling.Layout
