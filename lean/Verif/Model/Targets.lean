/-!
Which parts of the crate are compiled on which target: the `cfg` conditions of lib.rs, os.rs, kqueue.rs, poll.rs and Cargo.toml.
(Those inside epoll.rs, that leave out the eventfd and the timerfd on RedoxOS, are parameters of `Model/EpollM.lean`; those of
poll.rs that choose between pipe and eventfd are `Chan` of `Model/PollProto.lean`.)
-/

namespace Polling.Tgt

/-- The backends: lib.rs:81, 88, 94, 103, 112, 115. -/
inductive Backend where
  | epoll | kqueue | port | poll | iocp
deriving DecidableEq, Repr

/-- What the `cfg` conditions of lib.rs:77-119 and of the other files ask about the target and the build: `target_os`,
`target_vendor`, `unix`, `windows`, `polling_test_poll_backend` (Cargo.toml:21). -/
structure Target where
  os : String
  vendor : String
  unix : Bool
  windows : Bool
  testPoll : Bool := false
deriving DecidableEq, Repr

/-- kqueue platforms: lib.rs:96-102 (the same list as os.rs:4-10). -/
def kqueueOs (t : Target) : Bool :=
  t.vendor == "apple" || t.os == "freebsd" || t.os == "netbsd" || t.os == "openbsd" || t.os == "dragonfly"

/-- lib.rs:77-119: the backend that is compiled; `none` is `compile_error!`. -/
def sys (t : Target) : Option Backend :=
  if t.testPoll then some .poll
  else if t.os == "linux" || t.os == "android" || t.os == "redox" then some .epoll
  else if t.os == "illumos" || t.os == "solaris" then some .port
  else if kqueueOs t then some .kqueue
  else if t.os == "vxworks" || t.os == "hermit" || t.os == "fuchsia" || t.os == "horizon" || t.unix then some .poll
  else if t.os == "windows" then some .iocp
  else none

/-- os.rs:3-13: the module `os::kqueue` exists. -/
def extKqueue (t : Target) : Bool :=
  (t.vendor == "apple" || t.os == "freebsd" || t.os == "netbsd" || t.os == "openbsd" || t.os == "dragonfly") && !t.testPoll

/-- os.rs:15-16: the module `os::iocp` exists. -/
def extIocp (t : Target) : Bool := t.os == "windows"

/-- lib.rs:962-976: `Poller` implements `AsFd` and `AsRawFd` (`raw_fd_impl`). -/
def rawFdImpl (t : Target) : Bool :=
  (t.os == "linux" || t.os == "android" || t.os == "redox" || t.os == "illumos" || t.os == "solaris" || t.vendor == "apple" ||
    t.os == "freebsd" || t.os == "netbsd" || t.os == "openbsd" || t.os == "dragonfly") && !t.testPoll

/-- lib.rs:1009: `Poller` implements `AsHandle` and `AsRawHandle` (`raw_handle_impl`). -/
def rawHandleImpl (t : Target) : Bool := t.windows

/-- What a source is: lib.rs:1035-1066 (a file descriptor) or lib.rs:1068-1095 (a socket of Windows). -/
inductive Source where
  | fd | socket
deriving DecidableEq, Repr

/-- lib.rs:1034-1096: how `AsRawSource` and `AsSource` are defined, if they are. -/
def source (t : Target) : Option Source :=
  if t.unix || t.os == "hermit" then some .fd
  else if t.windows then some .socket
  else none

/-- lib.rs:1036-1039: how often `AsRawFd`, `RawFd`, `AsFd`, `BorrowedFd` are imported. -/
def fdImports (t : Target) : Nat := t.unix.toNat + (t.os == "hermit").toNat

/-- poll.rs:455, 467: how many modules `syscall` the poll backend has. -/
def pollSyscall (t : Target) : Nat := t.unix.toNat + (t.os == "hermit").toNat

/-- poll.rs:630: the notifier of the poll backend with the pipe. -/
def pollPipe (t : Target) : Bool := !(t.os == "espidf" || t.os == "hermit")
/-- poll.rs:739: the notifier of the poll backend with the eventfd. -/
def pollEventfd (t : Target) : Bool := t.os == "espidf" || t.os == "hermit"
/-- poll.rs:459-464 (ESP-IDF), 478 (hermit): the module `syscall` has `eventfd`. -/
def syscallEventfd (t : Target) : Bool := (t.unix && t.os == "espidf") || t.os == "hermit"

/-- kqueue.rs:397-401: the notifier with `EVFILT_USER`. -/
def kqueueUser (t : Target) : Bool := t.os == "freebsd" || t.os == "dragonfly" || t.vendor == "apple"
/-- kqueue.rs:477-481: the notifier with a pair of sockets. -/
def kqueuePair (t : Target) : Bool := !(t.os == "freebsd" || t.os == "dragonfly" || t.vendor == "apple")

/-- Cargo.toml:27: rustix is a dependency. -/
def rustix (t : Target) : Bool := t.unix || t.os == "fuchsia" || t.os == "vxworks"
/-- Cargo.toml:32-33, 36: windows-sys, concurrent-queue and pin-project-lite are dependencies. -/
def windowsSys (t : Target) : Bool := t.windows
/-- Cargo.toml:51: hermit-abi is a dependency. -/
def hermitAbi (t : Target) : Bool := t.os == "hermit"

/-- epoll.rs:245-255, kqueue.rs:267-277, port.rs:153-163: the poller of the backend implements `AsFd` and `AsRawFd`. -/
def hasFd : Backend → Bool
  | .epoll | .kqueue | .port => true
  | .poll | .iocp => false

/-- iocp/mod.rs:597-607: the poller of the backend implements `AsHandle` and `AsRawHandle`. -/
def hasHandle : Backend → Bool
  | .iocp => true
  | _ => false

/-- epoll.rs:104, kqueue.rs:87, port.rs:50, poll.rs:102 (`RawFd`), iocp/mod.rs:172 (`RawSocket`): what the backend watches. -/
def watches : Backend → Source
  | .iocp => .socket
  | _ => .fd

end Polling.Tgt
