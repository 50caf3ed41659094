import Verif.Model.Base

/-
Flag words and `EventExtra` of every backend, and the translation between flag words and events.
-/

namespace Polling

/-! ### epoll (epoll.rs) -/
namespace Epoll

/-- `rustix::event::epoll::EventFlags` is a `u32`; values are those of Linux `<sys/epoll.h>`. -/
abbrev Flags := BitVec 32
/-- `EPOLLIN` (OS; used at epoll.rs:279-305, 348-397) -/
def IN : Flags := 0x1#32
/-- `EPOLLPRI` (OS; used at epoll.rs:279-305, 348-397) -/
def PRI : Flags := 0x2#32
/-- `EPOLLOUT` (OS; used at epoll.rs:279-305, 348-397) -/
def OUT : Flags := 0x4#32
/-- `EPOLLERR` (OS; used at epoll.rs:279-305, 348-397) -/
def ERR : Flags := 0x8#32
/-- `EPOLLHUP` (OS; used at epoll.rs:279-305, 348-397) -/
def HUP : Flags := 0x10#32
/-- `EPOLLONESHOT` (OS; used at epoll.rs:279-305, 348-397) -/
def ONESHOT : Flags := 0x40000000#32
/-- `EPOLLET` (OS; used at epoll.rs:279-305, 348-397) -/
def ET : Flags := 0x80000000#32

/-- epoll.rs:348-350 `struct EventExtra { flags }`. -/
structure EventExtra where
  flags : Flags
deriving DecidableEq, Repr

/-- epoll.rs:352-397. -/
instance : Extra EventExtra where
  empty := ⟨0#32⟩
  setHup x v := ⟨setBit x.flags HUP v⟩
  setPri x v := ⟨setBit x.flags PRI v⟩
  isHup x := contains x.flags HUP
  isPri x := contains x.flags PRI
  isConnectFailed x := some (contains x.flags ERR && contains x.flags HUP)
  isErr x := some (contains x.flags ERR)

/-- epoll.rs:296-299 `read_flags`. -/
def readFlags : Flags := IN ||| HUP ||| ERR ||| PRI
/-- epoll.rs:302-305 `write_flags`. -/
def writeFlags : Flags := OUT ||| HUP ||| ERR

/-- epoll.rs:280-285, the mode part of `epoll_flags`. -/
def modeFlags : PollMode → Flags
  | .oneshot => ONESHOT
  | .level => 0#32
  | .edge => ET
  | .edgeOneshot => ET ||| ONESHOT

/-- epoll.rs:279-293 `epoll_flags`. -/
def epollFlags (interest : Event EventExtra) (mode : PollMode) : Flags :=
  let flags := modeFlags mode
  let flags := if interest.readable then flags ||| readFlags else flags
  let flags := if interest.writable then flags ||| writeFlags else flags
  flags

/-- The flag argument of `epoll_ctl` in epoll.rs:117 and 137: `epoll_flags(&ev, mode) | ev.extra.flags`. -/
def ctlFlags (ev : Event EventExtra) (mode : PollMode) : Flags := epollFlags ev mode ||| ev.extra.flags

/-- An entry of `epoll::EventVec`: data and flags as the kernel reported them. (epoll.rs:308-344) -/
structure RawEvent where
  data : BitVec 64
  flags : Flags
deriving DecidableEq, Repr

/-- epoll.rs:324-332, the closure of `Events::iter`. -/
def toEvent (ev : RawEvent) : Event EventExtra :=
  { key := u64ToKey 64 ev.data
    readable := intersects ev.flags readFlags
    writable := intersects ev.flags writeFlags
    extra := ⟨ev.flags⟩ }

end Epoll

/-! ### poll(2) (poll.rs) and event ports (port.rs): `rustix::event::PollFlags` -/
namespace PollFlags

/-- `PollFlags` is a 16-bit word (`short events`).  Values are those of Linux `<poll.h>`; the proofs only
use that they are distinct bits. -/
abbrev Flags := BitVec 16
/-- `POLLIN` (OS; used at poll.rs:343-363, 396-453) -/
def IN : Flags := 0x1#16
/-- `POLLPRI` (OS; used at poll.rs:343-363, 396-453) -/
def PRI : Flags := 0x2#16
/-- `POLLOUT` (OS; used at poll.rs:343-363, 396-453) -/
def OUT : Flags := 0x4#16
/-- `POLLERR` (OS; used at poll.rs:343-363, 396-453) -/
def ERR : Flags := 0x8#16
/-- `POLLHUP` (OS; used at poll.rs:343-363, 396-453) -/
def HUP : Flags := 0x10#16
/-- `POLLNVAL` (OS; used at poll.rs:343-363, 396-453) -/
def NVAL : Flags := 0x20#16
/-- `POLLWRBAND` (OS; used at poll.rs:343-363, 396-453) -/
def WRBAND : Flags := 0x200#16

end PollFlags

namespace PollB
open PollFlags

/-- poll.rs:396-399 `struct EventExtra { flags: PollFlags }`. -/
structure EventExtra where
  flags : Flags
deriving DecidableEq, Repr

/-- poll.rs:401-443. -/
instance : Extra EventExtra where
  empty := ⟨0#16⟩
  setHup x v := ⟨setBit x.flags HUP v⟩
  setPri x v := ⟨setBit x.flags PRI v⟩
  isHup x := contains x.flags HUP
  isPri x := contains x.flags PRI
  isConnectFailed x := some (contains x.flags ERR || contains x.flags HUP)
  isErr x := some (contains x.flags ERR)

/-- poll.rs:343-353 `poll_events`. -/
def pollEvents (ev : Event EventExtra) : Flags :=
  (if ev.readable then IN ||| PRI else 0#16) ||| (if ev.writable then OUT ||| WRBAND else 0#16)

/-- poll.rs:356-358 `read_events`. -/
def readEvents : Flags := IN ||| PRI ||| HUP ||| ERR
/-- poll.rs:361-363 `write_events`. -/
def writeEvents : Flags := OUT ||| WRBAND ||| HUP ||| ERR

/-- poll.rs:272-281: the event stored for a descriptor with the given key and `revents`. -/
def toEvent (key : Key) (revents : Flags) : Event EventExtra :=
  { key
    readable := intersects revents readEvents
    writable := intersects revents writeEvents
    extra := ⟨revents⟩ }

/-- poll.rs:445-453 `cvt_mode_as_remove`. -/
def cvtModeAsRemove : PollMode → Except Err Bool
  | .oneshot => .ok true
  | .level => .ok false
  | .edge => .error .unsupported
  | .edgeOneshot => .error .unsupported

end PollB

namespace Port
open PollFlags

/-- port.rs:216-218 `struct EventExtra { flags: PollFlags }`. -/
structure EventExtra where
  flags : Flags
deriving DecidableEq, Repr

/-- port.rs:220-263. -/
instance : Extra EventExtra where
  empty := ⟨0#16⟩
  setHup x v := ⟨setBit x.flags HUP v⟩
  setPri x v := ⟨setBit x.flags PRI v⟩
  isHup x := contains x.flags HUP
  isPri x := contains x.flags PRI
  isConnectFailed x := some (contains x.flags ERR && contains x.flags HUP)
  isErr x := some (contains x.flags ERR)

/-- port.rs:166-168 `read_flags`. -/
def readFlags : Flags := IN ||| HUP ||| ERR ||| PRI
/-- port.rs:171-173 `write_flags`. -/
def writeFlags : Flags := OUT ||| HUP ||| ERR

/-- port.rs:65-71: the event mask passed to `port_associate`. -/
def assocFlags (ev : Event EventExtra) : Flags :=
  let flags := 0#16
  let flags := if ev.readable then flags ||| readFlags else flags
  let flags := if ev.writable then flags ||| writeFlags else flags
  flags

/-- All flag bits `PollFlags` names (rustix 0.38): IN, PRI, OUT, ERR, HUP, NVAL, RDNORM, WRNORM, RDBAND,
WRBAND, (RDHUP 0x2000).  `from_bits_truncate` drops the others. (poll.rs:343-443) -/
def KNOWN : Flags := 0x23ff#16

/-- An entry of the event list of `port_getn`: source-independent part used by port.rs:191-201. -/
structure RawEvent where
  events : BitVec 32
  userdata : BitVec 64
deriving DecidableEq, Repr

/-- port.rs:191-201, the closure of `Events::iter`
(`from_bits_truncate(ev.events() as _)`: cast to 16 bits, then drop unnamed bits). -/
def toEvent (ev : RawEvent) : Event EventExtra :=
  let flags := ev.events.setWidth 16 &&& KNOWN
  { key := u64ToKey 64 ev.userdata
    readable := intersects flags readFlags
    writable := intersects flags writeFlags
    extra := ⟨flags⟩ }

end Port

/-! ### kqueue (kqueue.rs) -/
namespace Kqueue

/-- kqueue.rs:341-342 `struct EventExtra;` -/
structure EventExtra where
deriving DecidableEq, Repr

/-- kqueue.rs:344-384: every setter is a no-op and every query is constant. -/
instance : Extra EventExtra where
  empty := ⟨⟩
  setHup x _ := x
  setPri x _ := x
  isHup _ := false
  isPri _ := false
  isConnectFailed _ := none
  isErr _ := none

/-- `kqueue::EventFlags` used by the crate, as a record of booleans (each is a distinct bit of a `u16`).
(kqueue.rs:111-136, 386-395) -/
structure EvFlags where
  add : Bool := false
  delete : Bool := false
  oneshot : Bool := false
  clear : Bool := false
  receipt : Bool := false
  eof : Bool := false
  error : Bool := false
deriving DecidableEq, Repr

/-- kqueue.rs:386-395 `mode_to_flags`: (ONESHOT, CLEAR). -/
def modeToFlags : PollMode → EvFlags
  | .oneshot => { oneshot := true }
  | .level => {}
  | .edge => { clear := true }
  | .edgeOneshot => { oneshot := true, clear := true }

/-- `kqueue::EventFilter` (rustix), the identification part (ident + filter number).
(kqueue.rs:125-136; os/kqueue.rs:144-285) -/
inductive Filter where
  | read (fd : Fd)
  | write (fd : Fd)
  | vnode (fd : Fd)
  | proc (pid : Nat)
  | signal (sig : Int)
  | timer (ident : Nat)
  | user (ident : Nat)
  /-- AIO and filters unknown to rustix -/
  | other (ident : Nat)
deriving DecidableEq, Repr

/-- A `kqueue::Event`: used both for changes and for results. `data` is the errno for `EV_ERROR`.
(kqueue.rs:125-136, 154-170, 292-338) -/
structure KEvent where
  filter : Filter
  flags : EvFlags
  data : Int := 0
  udata : BitVec 64
  /-- `NOTE_TRIGGER` in fflags of a user filter -/
  trigger : Bool := false
deriving DecidableEq, Repr

/-- kqueue.rs:307-327, the closure of `Events::iter`. -/
def toEvent (ev : KEvent) : Event EventExtra :=
  { key := u64ToKey 64 ev.udata
    readable := match ev.filter with
      | .read _ | .vnode _ | .proc _ | .signal _ | .timer _ => true
      | _ => false
    writable := (match ev.filter with | .write _ => true | _ => false) ||
      ((match ev.filter with | .read _ => true | _ => false) && ev.flags.eof)
    extra := ⟨⟩ }

end Kqueue

/-! ### IOCP / AFD (iocp/mod.rs, iocp/afd.rs) -/
namespace Iocp

/-- iocp/afd.rs:78-80 `struct AfdPollMask(u32)`. -/
abbrev Mask := BitVec 32
/-- iocp/afd.rs:83 -/
def RECEIVE : Mask := 0x001#32
/-- iocp/afd.rs:84 -/
def RECEIVE_EXPEDITED : Mask := 0x002#32
/-- iocp/afd.rs:85 -/
def SEND : Mask := 0x004#32
/-- iocp/afd.rs:86 -/
def DISCONNECT : Mask := 0x008#32
/-- iocp/afd.rs:87 -/
def ABORT : Mask := 0x010#32
/-- iocp/afd.rs:88 -/
def LOCAL_CLOSE : Mask := 0x020#32
/-- iocp/afd.rs:89 -/
def ACCEPT : Mask := 0x080#32
/-- iocp/afd.rs:90 -/
def CONNECT_FAIL : Mask := 0x100#32

/-- iocp/mod.rs:647-650 `struct EventExtra { flags: AfdPollMask }`. -/
structure EventExtra where
  flags : Mask
deriving DecidableEq, Repr

/-- iocp/mod.rs:652-696; `AfdPollMask::intersects`/`set` are afd.rs:98-109. -/
instance : Extra EventExtra where
  empty := ⟨0#32⟩
  setHup x v := ⟨setBit x.flags ABORT v⟩
  setPri x v := ⟨setBit x.flags RECEIVE_EXPEDITED v⟩
  isHup x := intersects x.flags ABORT
  isPri x := intersects x.flags RECEIVE_EXPEDITED
  isConnectFailed x := some (intersects x.flags CONNECT_FAIL)
  isErr x := some (intersects x.flags CONNECT_FAIL)

/-- iocp/mod.rs:1273-1292 `event_properties_to_afd_mask`. -/
def propsToAfdMask (readable writable error : Bool) : Mask :=
  let mask := 0#32
  let mask := if error || readable || writable then mask ||| (ABORT ||| CONNECT_FAIL) else mask
  let mask := if readable then mask ||| (RECEIVE ||| ACCEPT ||| DISCONNECT ||| RECEIVE_EXPEDITED) else mask
  let mask := if writable then mask ||| SEND else mask
  mask

/-- iocp/mod.rs:1267-1269 `event_to_afd_mask`. -/
def eventToAfdMask (event : Event EventExtra) (error : Bool) : Mask :=
  propsToAfdMask event.readable event.writable error ||| event.extra.flags

/-- iocp/mod.rs:1296-1318 `afd_mask_to_event`. -/
def afdMaskToEvent (mask : Mask) : Bool × Bool :=
  let readable := intersects mask (RECEIVE ||| ACCEPT ||| DISCONNECT ||| RECEIVE_EXPEDITED)
  let writable := intersects mask SEND
  if intersects mask (ABORT ||| CONNECT_FAIL) then (true, true) else (readable, writable)

end Iocp

end Polling
