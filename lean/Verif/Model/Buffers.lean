import Verif.Model.Lib

/-
The `Events` buffers of the backends and what each `wait` does to its buffer.

Everything else a `wait` does is left to arbitrary functions here; it is modelled in the backend machines.  The events are
kept in the form in which `sys::Events::iter` shows them.  What rustix does to the vectors it is given is part of the trusted
base: `epoll::wait` and `port_getn` clear the vector first and set its length to the number of events; `kevent` sets it on
success only; all three offer the OS the capacity of the vector.
-/

namespace Polling.Buffers

/-- `Vec<T>` (std; used at epoll.rs:308-344, kqueue.rs:292-338, port.rs:176-212, poll.rs:366-392, iocp/mod.rs:610-643) -/
structure Vec (α : Type) where
  data : List α
  cap : Nat
deriving DecidableEq, Repr

variable {α : Type}

/-- `Vec::with_capacity(cap)`: the capacity is at least `cap` (`more`: what the allocator adds).
(std; lib.rs:855, epoll.rs:308-344, kqueue.rs:292-338, port.rs:176-212, poll.rs:366-392, iocp/mod.rs:610-643) -/
def Vec.withCapacity (more cap : Nat) : Vec α := ⟨[], cap + more⟩
/-- `Vec::clear` keeps the capacity. (std; lib.rs:904 and the `clear` of the backends) -/
def Vec.clear (v : Vec α) : Vec α := { v with data := [] }
/-- The vector has room for `n` elements.  `grow old need`: the capacity after growing.
(std; the OS is given the spare capacity) -/
def Vec.room (grow : Nat → Nat → Nat) (v : Vec α) (n : Nat) : Vec α := if n ≤ v.cap then v else { v with cap := grow v.cap n }
/-- `Vec::reserve(additional)` (std; poll.rs:269) -/
def Vec.reserve (grow : Nat → Nat → Nat) (v : Vec α) (additional : Nat) : Vec α := v.room grow (v.data.length + additional)
/-- `Vec::push` (std; poll.rs:275, iocp/mod.rs:465-479) -/
def Vec.push (grow : Nat → Nat → Nat) (v : Vec α) (x : α) : Vec α :=
  let v := v.room grow (v.data.length + 1)
  { v with data := v.data ++ [x] }

/-- `capacity` of lib.rs:951-953: `NonZeroUsize::new(self.events.capacity()).unwrap()`; `none` is a panic. -/
def capacity (v : Vec α) : Option Nat := if v.cap = 0 then none else some v.cap

/-- The OS calls of epoll.rs, kqueue.rs and port.rs around the buffer. -/
structure Os (X W : Type) where
  /-- epoll.rs:170-191: setting the timer -/
  prepare : W → Option Duration → Res × W
  /-- `epoll_wait`, `kevent`, `port_getn` with room for so many events -/
  get : W → Nat → Option Duration → Except Err (List (Event X)) × W
  /-- epoll.rs:222-227, kqueue.rs:249: clearing and re-arming the notifier -/
  finish : W → Res × W

/-- The OS stores no more events than there is room for.
(OS: `epoll_wait`, `kevent`, `port_getn`, `GetQueuedCompletionStatusEx` as called at epoll.rs:214, kqueue.rs:240, port.rs:116, iocp/port.rs:231) -/
def Os.Ok {X W : Type} (os : Os X W) : Prop := ∀ w cap t l w', os.get w cap t = (.ok l, w') → l.length ≤ cap

variable {X W : Type}

/-- epoll.rs:159-229 `wait` -/
def epollWait (os : Os X W) (w : W) (v : Vec (Event X)) (t : Option Duration) : Res × W × Vec (Event X) :=
  match os.prepare w t with
  | (.err e, w) => (.err e, w, v)
  | (.ok, w) =>
    let v := v.clear
    match os.get w v.cap t with
    | (.error e, w) => (.err e, w, v)
    | (.ok l, w) =>
      let (r, w) := os.finish w
      (r, w, { v with data := l })

/-- kqueue.rs:229-252 `wait` -/
def kqueueWait (os : Os X W) (w : W) (v : Vec (Event X)) (t : Option Duration) : Res × W × Vec (Event X) :=
  match os.get w v.cap t with
  | (.error e, w) => (.err e, w, v)
  | (.ok l, w) =>
    let (r, w) := os.finish w
    (r, w, { v with data := l })

/-- `ETIME` (OS; port.rs:128) -/
def ETIME : Err := .os 62

/-- port.rs:107-134 `wait` -/
def portWait (os : Os X W) (w : W) (v : Vec (Event X)) (t : Option Duration) : Res × W × Vec (Event X) :=
  let v := v.clear
  match os.get w v.cap t with
  | (.error e, w) => if e = ETIME then (.ok, w, v) else (.err e, w, v)
  | (.ok l, w) => (.ok, w, { v with data := l })

/-- How poll.rs:220-297 goes on until the events are stored. -/
inductive Polled (X : Type) where
  /-- line 225, 247, 253: returns without storing events -/
  | returned (r : Res)
  /-- line 262: `num_fd_events` and the events of the descriptors, in the order of the table -/
  | events (n : Nat) (l : List (Event X))

/-- poll.rs:205-300 `wait`; `poll` is everything before the events are stored. -/
def pollWait (grow : Nat → Nat → Nat) (poll : W → Option Duration → Polled X × W) (w : W) (v : Vec (Event X)) (t : Option Duration) :
    Res × W × Vec (Event X) :=
  -- line 215
  let v := v.clear
  match poll w t with
  | (.returned r, w) => (r, w, v)
  | (.events n l, w) =>
    if n > 0 then
      -- lines 265-290
      (.ok, w, (l.take n).foldl (fun v ev => v.push grow ev) (v.reserve grow n))
    else (.ok, w, v)

/-- What becomes of a completion, iocp/mod.rs:468-478. -/
inductive Fed (X : Type) where
  | noEvent
  | event (ev : Event X)
  | notified
  | failed (e : Err)

/-- iocp/mod.rs:465-479: process the completions. -/
def iocpFeed (grow : Nat → Nat → Nat) : List (Fed X) → (v : Vec (Event X)) → (notified : Bool) → (new : Nat) → Except Err (Bool × Nat) × Vec (Event X)
  | [], v, notified, new => (.ok (notified, new), v)
  | .noEvent :: l, v, notified, new => iocpFeed grow l v notified new
  | .event ev :: l, v, notified, new => iocpFeed grow l (v.push grow ev) notified (new + 1)
  | .notified :: l, v, _, new => iocpFeed grow l v true new
  | .failed e :: _, v, _, _ => (.error e, v)

/-- iocp/mod.rs:435-489, the loop, with at most `fuel` rounds.  `round` is lines 436-462 with a buffer for so many completions
(the capacity of `completions`, which never changes); `expired` is lines 482-483. -/
def iocpLoop (grow : Nat → Nat → Nat) (ccap : Nat) (round : W → Nat → Except Err (List (Fed X)) × W) (expired : W → Bool) :
    Nat → W → Vec (Event X) → Bool → Option (Res × W × Vec (Event X))
  | 0, _, _, _ => none
  | fuel + 1, w, v, notified =>
    match round w ccap with
    | (.error e, w) => some (.err e, w, v)
    | (.ok l, w) =>
      match iocpFeed grow l v notified 0 with
      | (.error e, v) => some (.err e, w, v)
      | (.ok (notified, new), v) =>
        if notified || decide (new > 0) || expired w then some (.ok, w, v)
        else iocpLoop grow ccap round expired fuel w v notified

/-- `WAIT_TIMEOUT`, the error of the kind `TimedOut` (OS; iocp/port.rs:243) -/
def WAIT_TIMEOUT : Err := .os 258

/-- iocp/port.rs:219-253 `IoCompletionPort::wait`.  `get` is `GetQueuedCompletionStatusEx` with room for so many entries and
a timeout in milliseconds; `none`: the conversion of the capacity panics (line 234). -/
def iocpPortWait (get : W → Nat → Nat → Except Err (List α) × W) (w : W) (packets : Vec α) (t : Option Duration) :
    Option (Except Err Nat × W × Vec α) :=
  -- line 225
  let packets := packets.clear
  match tryInto u32Max packets.cap with
  | none => none
  | some n =>
    match get w n (iocpTimeoutMs t) with
    | (.error e, w) => some (if e = WAIT_TIMEOUT then .ok 0 else .error e, w, packets)
    | (.ok l, w) => some (.ok l.length, w, { packets with data := l })

/-- iocp/mod.rs:422-492 `wait` -/
def iocpWait (grow : Nat → Nat → Nat) (ccap fuel : Nat) (round : Option Duration → W → Nat → Except Err (List (Fed X)) × W)
    (expired : Option Duration → W → Bool) (w : W) (v : Vec (Event X)) (t : Option Duration) : Option (Res × W × Vec (Event X)) :=
  -- line 433
  iocpLoop grow ccap (round t) (expired t) fuel w v.clear false

end Polling.Buffers
