import Verif.Model.Base

/-
afd.rs:650-697: the search for the socket of the base provider below a socket.

`WSAIoctl` is a parameter: what it answers for a socket and a control code.  The answer for a socket does not change during
one call of `base_socket` (the third request is made for another socket than the first two, see `asks_different`).
-/

namespace Polling.BaseSock

/-- A `RawSocket`. (afd.rs:650) -/
abbrev Sock := Nat

/-- The control codes used, afd.rs:652 and 662. -/
inductive Ioctl where
  /-- `SIO_BASE_HANDLE` -/
  | base
  /-- `SIO_BSP_HANDLE_POLL` -/
  | bspPoll
deriving DecidableEq, Repr

/-- What `WSAIoctl` answers; an error is `last_os_error` (line 693). (afd.rs:676-697) -/
abbrev Os := Sock → Ioctl → Except Err Sock

/-- A computation that makes requests: its result and the requests made, in order. (afd.rs:650-669) -/
abbrev Asked := Except Err Sock × List (Sock × Ioctl)

/-- afd.rs:676-697 `try_socket_ioctl`. -/
def tryIoctl (os : Os) (s : Sock) (i : Ioctl) : Asked := (os s i, [(s, i)])

/-- afd.rs:667-668: the last request. -/
def again (os : Os) (r : Sock) (asked : List (Sock × Ioctl)) : Asked :=
  let (res, l) := tryIoctl os r .base
  (res, asked ++ l)

/-- afd.rs:660-668: the second half. -/
def viaPoll (os : Os) (s : Sock) (asked : List (Sock × Ioctl)) : Asked :=
  let (res, l) := tryIoctl os s .bspPoll
  match res with
  | .error e => (.error e, asked ++ l)
  | .ok r => if r = s then (.error .invalidInput, asked ++ l) else again os r (asked ++ l)

/-- afd.rs:650-669 `base_socket`. -/
def baseSocket (os : Os) (s : Sock) : Asked :=
  let (res, l) := tryIoctl os s .base
  match res with
  | .ok b => (.ok b, l)
  | .error e => if e = .invalidInput then (.error e, l) else viaPoll os s l

end Polling.BaseSock
