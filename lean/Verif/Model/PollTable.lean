import Verif.Model.Flags
import Verif.Spec.PollMap

/-
The poll(2) backend as a sequential machine: the descriptor table (`Fds`) of poll.rs, its three
registration calls, and the collection of events after `poll()` returned.
The locking around it (`modify_fds`, the loop of `wait`) is modelled in `Model/PollProto.lean`.

`Option` results: `none` is a Rust panic (index out of bounds, `unwrap` on `None`, underflow).
-/

namespace Polling.PollB
open PollFlags

/-- `rustix::event::PollFd` = C `struct pollfd`. (used at poll.rs:46-55, 130) -/
structure PollFd where
  fd : Fd
  events : Flags
  revents : Flags
deriving DecidableEq, Repr

/-- `PollFd::from_borrowed_fd` (poll.rs:77, 130, 164, 283): `revents` starts empty. -/
def PollFd.new (fd : Fd) (events : Flags) : PollFd := ⟨fd, events, 0#16⟩

/-- poll.rs:59-66 `struct FdData`. -/
structure FdData where
  index : Nat
  key : Key
  remove : Bool
deriving DecidableEq, Repr

/-- poll.rs:46-55 `struct Fds`.  The `HashMap` is a partial function; its iteration order is a separate,
arbitrary argument of `collect`. -/
structure Fds where
  pollFds : List PollFd
  fdData : Fd → Option FdData

/-- The two descriptors of `notify::Notify` (poll.rs:646-656, 759; one descriptor for the eventfd variant, then both
fields are equal) and the flags it is polled with (poll.rs:689-691, 798-800). -/
structure NotifyFds where
  readFd : Fd
  writeFd : Fd
  flags : Flags
deriving DecidableEq, Repr

/-- poll.rs:733-735, 826-828 `Notify::has_fd`. -/
def NotifyFds.hasFd (n : NotifyFds) (fd : Fd) : Bool := n.readFd == fd || n.writeFd == fd

/-- poll.rs:76-83: the table of a new poller. -/
def Fds.init (n : NotifyFds) : Fds := ⟨[PollFd.new n.readFd n.flags], fun _ => none⟩

/-- `HashMap::insert` (std; poll.rs:121) -/
def mapInsert (m : Fd → Option FdData) (fd : Fd) (d : FdData) : Fd → Option FdData :=
  fun x => if x = fd then some d else m x
/-- `HashMap::remove` (std; poll.rs:190) -/
def mapRemove (m : Fd → Option FdData) (fd : Fd) : Fd → Option FdData :=
  fun x => if x = fd then none else m x

/-- `Vec::swap_remove`: panics if the index is out of bounds. (std; poll.rs:192) -/
def swapRemove {α : Type} (l : List α) (i : Nat) : Option (List α) :=
  match l.getLast? with
  | none => none
  | some last => if i < l.length then some ((l.set i last).dropLast) else none

/-- poll.rs:102-138 `add`: the check and the closure given to `modify_fds`.
`cvt_mode_as_remove(mode)?` is evaluated before `insert` is called (Rust evaluates arguments first). -/
def add (n : NotifyFds) (fds : Fds) (fd : Fd) (ev : Event EventExtra) (mode : PollMode) : Option (Res × Fds) :=
  if n.hasFd fd then some (.err .invalidInput, fds)
  else
    match fds.fdData fd with
    | some _ => some (.err .alreadyExists, fds)
    | none =>
      match cvtModeAsRemove mode with
      | .error e => some (.err e, fds)
      | .ok remove =>
        some (.ok, { pollFds := fds.pollFds ++ [PollFd.new fd (pollEvents ev)]
                     fdData := mapInsert fds.fdData fd ⟨fds.pollFds.length, ev.key, remove⟩ })

/-- poll.rs:141-172 `modify`.  The order is that of the code: key first, then the `pollfd`, then the mode
conversion that may fail. -/
def modify (n : NotifyFds) (fds : Fds) (fd : Fd) (ev : Event EventExtra) (mode : PollMode) : Option (Res × Fds) :=
  if n.hasFd fd then some (.err .invalidInput, fds)
  else
    match fds.fdData fd with
    | none => some (.err .notFound, fds)
    | some data =>
      let data := { data with key := ev.key }
      if data.index < fds.pollFds.length then
        let pollFds := fds.pollFds.set data.index (PollFd.new fd (pollEvents ev))
        match cvtModeAsRemove mode with
        | .error e => some (.err e, ⟨pollFds, mapInsert fds.fdData fd data⟩)
        | .ok remove => some (.ok, ⟨pollFds, mapInsert fds.fdData fd { data with remove }⟩)
      else none

/-- poll.rs:175-202 `delete`. -/
def delete (n : NotifyFds) (fds : Fds) (fd : Fd) : Option (Res × Fds) :=
  if n.hasFd fd then some (.err .invalidInput, fds)
  else
    match fds.fdData fd with
    | none => some (.err .notFound, fds)
    | some data =>
      let m := mapRemove fds.fdData fd
      match swapRemove fds.pollFds data.index with
      | none => none
      | some pollFds =>
        match pollFds[data.index]? with
        | none => some (.ok, ⟨pollFds, m⟩)
        | some swapped =>
          match m swapped.fd with
          | none => none
          | some d => some (.ok, ⟨pollFds, mapInsert m swapped.fd { d with index := data.index }⟩)

/-- OS contract of `poll(2)`: it overwrites `revents` of every entry (here with the value of an arbitrary
function of the descriptor and the requested events) and returns the number of entries whose `revents` is
non-zero. (OS; called at poll.rs:248) -/
def osPoll (os : Fd → Flags → Flags) (l : List PollFd) : List PollFd × Nat :=
  let l := l.map fun p => { p with revents := os p.fd p.events }
  (l, (l.filter fun p => p.revents != 0#16).length)

/-- poll.rs:270-293: the loop over `fd_data.values_mut()`, in iteration order `order`; `events` are the events
stored so far. -/
def collect (numFdEvents : Nat) : List Fd → Fds → List (Event EventExtra) → Option (Fds × List (Event EventExtra))
  | [], fds, events => some (fds, events)
  | fd :: order, fds, events =>
    match fds.fdData fd with
    | none => none  -- not an element of the map: excluded by `order` being its iteration order
    | some data =>
      match fds.pollFds[data.index]? with
      | none => none
      | some pollFd =>
        if pollFd.revents != 0#16 then
          let events := events ++ [toEvent data.key pollFd.revents]
          let fds := if data.remove then
              { fds with pollFds := fds.pollFds.set data.index (PollFd.new pollFd.fd 0#16) }
            else fds
          if events.length = numFdEvents then some (fds, events)
          else collect numFdEvents order fds events
        else collect numFdEvents order fds events

/-- Outcome of one round of the loop of `wait` after `poll()` returned. (poll.rs:255-296) -/
inductive Round where
  /-- line 262: only a registration call woke us; poll again -/
  | again
  /-- `Ok(())` with these events in the buffer -/
  | done (events : List (Event EventExtra))
deriving DecidableEq, Repr

/-- poll.rs:248-296: one round of the outer loop from `poll()` on.  `sysNotified` is the value of
`self.notified` swapped out at line 261; the buffer was cleared at line 215. -/
def round (os : Fd → Flags → Flags) (order : List Fd) (sysNotified : Bool) (fds : Fds) : Option (Fds × Round) :=
  let (pollFds, numEvents) := osPoll os fds.pollFds
  let fds := { fds with pollFds }
  match pollFds[0]? with
  | none => none
  | some p0 =>
    let notified := p0.revents != 0#16
    -- line 250; `num_events - 1` would panic (or wrap) at 0
    if notified && numEvents == 0 then none
    else
      let numFdEvents := if notified then numEvents - 1 else numEvents
      if !sysNotified && numFdEvents == 0 && notified then some (fds, .again)
      else if numFdEvents > 0 then
        match collect numFdEvents order fds [] with
        | none => none
        | some (fds, events) => some (fds, .done events)
      else some (fds, .done [])

/-- A registration call on the table (poll.rs:102, 141, 175). -/
def call (n : NotifyFds) (fds : Fds) : PollSpec.Op → Option (Res × Fds)
  | .add fd ev mode => add n fds fd ev mode
  | .modify fd ev mode => modify n fds fd ev mode
  | .delete fd => delete n fds fd

/-- Everything a history of calls shows; `none` if one of them panics. (plumbing of the model, no counterpart in the code) -/
def run (n : NotifyFds) (fds : Fds) : List PollSpec.Step → Option (List PollSpec.Out)
  | [] => some []
  | .call op :: rest =>
    match call n fds op with
    | none => none
    | some (r, fds) => (run n fds rest).map (.res r :: ·)
  | .round os order notified :: rest =>
    match round os order notified fds with
    | none => none
    | some (fds, .again) => (run n fds rest).map (.again :: ·)
    | some (fds, .done l) => (run n fds rest).map (.events l :: ·)

end Polling.PollB
