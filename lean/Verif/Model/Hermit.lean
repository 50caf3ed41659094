import Verif.Model.PollTable

/-
poll.rs:468-628: the replacement for `rustix` on Hermit.  Descriptors, `eventfd`, `read`, `write` and `poll` are calls of the OS, which are parameters
of `PollProto`; here are the flags and the conversion of results.
-/

namespace Polling.Hermit
open PollFlags

/-- poll.rs:560 `PollFlags(i16)`: the same 16 bits. -/
abbrev HFlags := BitVec 16

/-- poll.rs:576-578 `contains`: it tests for any of the flags, not for all. -/
def contains (x f : HFlags) : Bool := decide (x &&& f ≠ 0#16)

/-- poll.rs:581-587 `set` -/
def set (x f : HFlags) (v : Bool) : HFlags := if v then x ||| f else x &&& ~~~f

/-- poll.rs:590-592 `is_empty` -/
def isEmpty (x : HFlags) : Bool := decide (x = 0#16)

/-- poll.rs:595-597 `intersects` -/
def intersects (x f : HFlags) : Bool := contains x f

/-- poll.rs:603-605 `bitor` -/
def bitor (x f : HFlags) : HFlags := x ||| f

/-- poll.rs:401-443 with these flags. -/
@[reducible] def extra : Extra PollB.EventExtra where
  empty := ⟨0#16⟩
  setHup x v := ⟨set x.flags HUP v⟩
  setPri x v := ⟨set x.flags PRI v⟩
  isHup x := contains x.flags HUP
  isPri x := contains x.flags PRI
  isConnectFailed x := some (contains x.flags ERR || contains x.flags HUP)
  isErr x := some (contains x.flags ERR)

/-- poll.rs:343-353 `poll_events` -/
def pollEvents (ev : Event PollB.EventExtra) : HFlags :=
  bitor (if ev.readable then bitor IN PRI else 0#16) (if ev.writable then bitor OUT WRBAND else 0#16)

/-- poll.rs:356-358 -/
def readEvents : HFlags := bitor (bitor (bitor IN PRI) HUP) ERR
/-- poll.rs:361-363 -/
def writeEvents : HFlags := bitor (bitor (bitor OUT WRBAND) HUP) ERR

/-- poll.rs:272-281: the event for a descriptor, if there is one. -/
def toEvent (key : Key) (revents : HFlags) : Option (Event PollB.EventExtra) :=
  if isEmpty revents then none
  else some { key, readable := intersects revents readEvents, writable := intersects revents writeEvents, extra := ⟨revents⟩ }

/-- poll.rs:617-627 `cvt`; `errno` is that of the calling thread. -/
def cvt (errno : Nat) (len : Int) : Except Nat Nat := if len < 0 then .error errno else .ok len.toNat

end Polling.Hermit
