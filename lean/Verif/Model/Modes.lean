/-! `supports_level` and `supports_edge` of the backends. -/

namespace Polling

/-- epoll.rs:89-91 -/
def Epoll.supportsLevel : Bool := true
/-- epoll.rs:94-96 -/
def Epoll.supportsEdge : Bool := true
/-- poll.rs:92-94 -/
def PollB.supportsLevel : Bool := true
/-- poll.rs:97-99 -/
def PollB.supportsEdge : Bool := false
/-- kqueue.rs:73-75 -/
def Kqueue.supportsLevel : Bool := true
/-- kqueue.rs:78-80 -/
def Kqueue.supportsEdge : Bool := true
/-- port.rs:36-38 -/
def Port.supportsLevel : Bool := false
/-- port.rs:41-43 -/
def Port.supportsEdge : Bool := false
/-- iocp/mod.rs:158-160 -/
def Iocp.supportsLevel : Bool := true
/-- iocp/mod.rs:163-165 -/
def Iocp.supportsEdge : Bool := false

end Polling
