import Verif.Model.EpollM
import Verif.Model.KqM
import Verif.Model.PortM

/-
A poller that is itself watched: `Poller` gives out the descriptor of its epoll instance, kqueue or event port (lib.rs:993-1007;
epoll.rs:245-255, kqueue.rs:267-277, port.rs:153-163), so that another event loop can wait for it to become readable.

When such a descriptor is readable is part of the OS, and in the trusted base: epoll(7) "if an epoll file descriptor has events
waiting, then it will indicate as being readable", kqueue(2) and port_create(3C) alike.
-/

namespace Polling.EpollM
open Epoll

/-- Kernel `ep_eventpoll_poll`: an entry of the ready list has something to report. (OS; the descriptor is that of epoll.rs:245-255) -/
def pollIn (c : Cfg) (k : Kern) : Bool :=
  k.rdl.any fun fd =>
    match k.items fd with
    | none => false
    | some it => decide (ready c k fd &&& it.events &&& ~~~PRIVATE ≠ 0#32)

end Polling.EpollM

namespace Polling.KqM
open Kqueue KqSpec

/-- Kernel: a `kevent` would report something. (OS; the descriptor is that of kqueue.rs:267-277) -/
def pollIn (c : Cfg) (k : Kern) : Bool :=
  k.queue.any fun f =>
    match k.knotes f with
    | none => false
    | some n => (ready c k f).isSome || (n.oneshot && !c.recheck)

/-- Kernel `kqueue_poll`: what the descriptor may indicate.  Some kernels only look whether there are active knotes, others whether
one of them still has something to report. (OS; the descriptor is that of kqueue.rs:267-277) -/
def Indicates (c : Cfg) (k : Kern) (readable : Bool) : Prop :=
  (readable = false → pollIn c k = false) ∧ (readable = true → k.queue ≠ [])

end Polling.KqM

namespace Polling.PortM

/-- Kernel: events are queued at the port. (OS; the descriptor is that of port.rs:153-163) -/
def pollIn (k : Kern) : Bool := !k.queue.isEmpty

end Polling.PortM
