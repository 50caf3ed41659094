/-
Basic types shared by every backend model.

Models: /repo/src/lib.rs (Event, PollMode, Event constructors and setters, Events).
-/

namespace Polling

/-- `usize` on a 64-bit target.  Keys of other widths are treated in `keyToU64`/`u64ToKey` below. (lib.rs:125, 129-138) -/
abbrev Key := BitVec 64

/-- Raw file descriptor / socket / handle number (`RawFd`, `RawSocket`).  lib.rs:985-1080 only
converts the source to its raw number, so sources are modelled by that number.
Simplification: a valid descriptor is never negative, hence `Nat`. -/
abbrev Fd := Nat

/-- lib.rs:125 `const NOTIFY_KEY: usize = usize::MAX`. -/
def NOTIFY_KEY : Key := BitVec.allOnes 64

/-- lib.rs:129-138 `struct Event`; `X` is the backend's `sys::EventExtra`. -/
structure Event (X : Type) where
  key : Key
  readable : Bool
  writable : Bool
  extra : X
deriving DecidableEq, Repr

/-- lib.rs:143-182 `enum PollMode`. -/
inductive PollMode where
  | oneshot | level | edge | edgeOneshot
deriving DecidableEq, Repr

/-- `io::ErrorKind` values produced by the crate itself, plus raw OS errors.
(the errors the crate makes or looks at: kqueue.rs:186, 201, 216; poll.rs:104, 117, 158, 191; lib.rs:555, 660, 746, 1103; iocp/mod.rs:124, 188, 225, 264; afd.rs:449, 494, 656, 664) -/
inductive Err where
  | invalidInput
  | alreadyExists
  | notFound
  | unsupported
  | interrupted
  | wouldBlock
  /-- any other error of an OS call, by number -/
  | os (n : Nat)
deriving DecidableEq, Repr

/-- `io::Result<()>`: a decidable two-valued result. (lib.rs:548, 653, 688: the result type of the calls) -/
inductive Res where
  | ok
  | err (e : Err)
deriving DecidableEq, Repr

/-- The operations every `sys::EventExtra` offers (epoll.rs:348-397, poll.rs:396-443,
port.rs:216-263, kqueue.rs:342-384, iocp/mod.rs:647-696). -/
class Extra (X : Type) where
  /-- `EventExtra::empty` -/
  empty : X
  /-- `EventExtra::set_hup` -/
  setHup : X → Bool → X
  /-- `EventExtra::set_pri` -/
  setPri : X → Bool → X
  /-- `EventExtra::is_hup` -/
  isHup : X → Bool
  /-- `EventExtra::is_pri` -/
  isPri : X → Bool
  /-- `EventExtra::is_connect_failed` -/
  isConnectFailed : X → Option Bool
  /-- `EventExtra::is_err` -/
  isErr : X → Option Bool

namespace Event
variable {X : Type} [Extra X]

/-- lib.rs:186-193 `Event::new`. -/
def new (key : Key) (readable writable : Bool) : Event X :=
  { key, readable, writable, extra := Extra.empty }

/-- lib.rs:199-201 `Event::all`. -/
def all (key : Key) : Event X := new key true true
/-- lib.rs:207-209 `Event::readable`. -/
def onlyReadable (key : Key) : Event X := new key true false
/-- lib.rs:215-217 `Event::writable`. -/
def onlyWritable (key : Key) : Event X := new key false true
/-- lib.rs:223-225 `Event::none`. -/
def none (key : Key) : Event X := new key false false

/-- lib.rs:241-243 `Event::set_interrupt` (returns the mutated event). -/
def setInterrupt (e : Event X) (active : Bool) : Event X := { e with extra := Extra.setHup e.extra active }
/-- lib.rs:259-262 `Event::with_interrupt`. -/
def withInterrupt (e : Event X) : Event X := e.setInterrupt true
/-- lib.rs:278-280 `Event::set_priority`. -/
def setPriority (e : Event X) (active : Bool) : Event X := { e with extra := Extra.setPri e.extra active }
/-- lib.rs:296-299 `Event::with_priority`. -/
def withPriority (e : Event X) : Event X := e.setPriority true
/-- lib.rs:315-317 `Event::is_interrupt`. -/
def isInterrupt (e : Event X) : Bool := Extra.isHup e.extra
/-- lib.rs:333-335 `Event::is_priority`. -/
def isPriority (e : Event X) : Bool := Extra.isPri e.extra
/-- lib.rs:396-398 `Event::is_connect_failed`. -/
def isConnectFailed (e : Event X) : Option Bool := Extra.isConnectFailed e.extra
/-- lib.rs:413-415 `Event::is_err`. -/
def isErr (e : Event X) : Option Bool := Extra.isErr e.extra
/-- lib.rs:419-421 `Event::clear_extra`. -/
def clearExtra (e : Event X) : Event X := { e with extra := Extra.empty }
/-- lib.rs:427-430 `Event::with_no_extra`. -/
def withNoExtra (e : Event X) : Event X := e.clearExtra

end Event

/-- `self.flags.set(bit, value)` of a bitflags type.
(the `set` of the flag types: epoll.rs:348-397, poll.rs:396-443, port.rs:216-263, iocp/mod.rs:646-696) -/
def setBit {n : Nat} (flags bit : BitVec n) (value : Bool) : BitVec n :=
  if value then flags ||| bit else flags &&& ~~~bit
/-- bitflags `contains`: all bits of `bits` are set.
(used in epoll.rs:348-397, poll.rs:396-443, port.rs:216-263, iocp/mod.rs:646-696) -/
def contains {n : Nat} (flags bits : BitVec n) : Bool := flags &&& bits == bits
/-- bitflags `intersects`: some bit of `bits` is set. (used in iocp/mod.rs:1267-1318) -/
def intersects {n : Nat} (flags bits : BitVec n) : Bool := flags &&& bits != 0#n

/-- `key as u64` for a `usize` of width `w` (epoll.rs:116, 136: `EventData::new_u64(ev.key as u64)`).
The pointer-sized user data of kqueue (kqueue.rs:129, 134), event ports (port.rs:80) is the case where
the result is read back at the same width. -/
def keyToU64 {w : Nat} (k : BitVec w) : BitVec 64 := k.setWidth 64
/-- `ev.data.u64() as usize` for a `usize` of width `w` (epoll.rs:327). -/
def u64ToKey (w : Nat) (d : BitVec 64) : BitVec w := d.setWidth w

end Polling
