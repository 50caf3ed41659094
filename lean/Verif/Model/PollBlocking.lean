import Verif.Model.PollProto

/-
The poll(2) backend where taking a notification is a blocking `read`: what fails with `WouldBlock` in `Model/PollProto.lean`
sleeps here until there is something to read.  Both callers of `pop_notification` (poll.rs:225 in `wait`, poll.rs:329 in
`modify_fds`) hold the lock of the table while they do so.  All other steps are those of `Model/PollProto.lean`.

* PS Vita (`Chan.pipe`): `pop_notification` switches the read end of the pipe to blocking for its one `read` (poll.rs:706-718).
  `pop_all_notifications` does not (poll.rs:726-730).
* HermitOS (`Chan.eventfd`): the eventfd is made by `hermit_abi::eventfd(count, 0)` (poll.rs:478-480), that is, without
  `EFD_NONBLOCK`, so that by eventfd(2) a `read` of the counter zero blocks.  `pop_all_notifications` is `pop_notification`
  here (poll.rs:819-820).

Simplifications: the four `fcntl` calls on the Vita (poll.rs:707-710, 715-718) do not fail, and the switch, the read and the
switch back are one step: nobody else reads or switches in between, as `pop_notification` and `pop_all_notifications` are only
called with the lock of the table held.  A byte is available as soon as it is written (the comment poll.rs:702-703 says that on
the Vita it may be later).
-/

namespace Polling.PollBlk
open PollP PollB

/-- poll.rs:706-712 (Vita), 478-480 and 810-823 (hermit): the blocking read has to wait: there is nothing to read. -/
def blocks (c : Cfg) (s : S) : Act → Bool
  | .callPop | .waitPop => s.chan == 0
  | .waitPopAll => c.chan != .pipe && s.chan == 0
  | _ => false

/-- The effect of a step of thread `t` (poll.rs, as in `PollP.step`, with the blocking reads of poll.rs:706-712 and 478-480). -/
def stepV (c : Cfg) (s : S) (t : Tid) (a : Act) : Option (S × PObs) :=
  if blocks c s a then none else step c s t a

/-- Reachable states, by steps that satisfy `P` (of the state before and the step), with the observations, newest first
(plumbing, no counterpart in the code; the start is poll.rs:70-89 `Poller::new`). -/
inductive ReachV (c : Cfg) (P : S → Act → Prop) : S → List PObs → Prop
  | init : ReachV c P (init c) []
  | step {s tr t a s' o} : ReachV c P s tr → P s a → stepV c s t a = some (s', o) → ReachV c P s' (o :: tr)

/-- Run a list of steps (plumbing, no counterpart in the code). -/
def runActsV (c : Cfg) (s : S) : List (Tid × Act) → Option (S × List PObs)
  | [] => some (s, [])
  | (t, a) :: as => (stepV c s t a).bind fun r => (runActsV c r.1 as).map fun q => (q.1, q.2 ++ [r.2])

/-- Writing to the channel does not fail (poll.rs:695, 804). -/
def Works : S → Act → Prop := fun _ a => WritesWork a

end Polling.PollBlk
