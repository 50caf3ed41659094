import Verif.Model.Targets

/-!
C61: what the documentation says about platforms (lib.rs:3-9), what it takes to compile, and what is assumed about the targets of
the compiler.
-/

namespace Polling.TgtSpec
open Tgt

/-- The platforms named in the documentation (lib.rs:4-9), by their `target_os`. -/
def named : Backend → List String
  | .epoll => ["linux", "android", "redox"]
  | .kqueue => ["macos", "ios", "tvos", "watchos", "visionos", "freebsd", "netbsd", "openbsd", "dragonfly"]
  | .port => ["illumos", "solaris"]
  | .poll => ["vxworks", "fuchsia", "hermit"]
  | .iocp => ["windows"]

/-- The documentation promises backend `b` for the target: it is named, or it is one of the "other Unix systems". -/
def Documented (t : Target) (b : Backend) : Prop :=
  t.os ∈ named b ∨ (b = .poll ∧ t.unix = true ∧ ∀ b', t.os ∉ named b')

/-- What is assumed of the targets of rustc.  (Not assumed: anything about systems that are not mentioned, except that they are
not called "horizon" without being Unix systems.) -/
structure Rustc (t : Target) : Prop where
  /-- `cfg(windows)` is the operating system Windows, -/
  windows : t.windows = true ↔ t.os = "windows"
  /-- which is not a Unix system; -/
  notBoth : t.windows = true → t.unix = false
  /-- nor is HermitOS; -/
  hermit : t.os = "hermit" → t.unix = false
  /-- the systems of Apple are these; -/
  apple : t.vendor = "apple" ↔ t.os ∈ ["macos", "ios", "tvos", "watchos", "visionos"]
  /-- and these systems count as Unix systems. -/
  unix : t.os ∈ ["linux", "android", "redox", "macos", "ios", "tvos", "watchos", "visionos", "freebsd", "netbsd", "openbsd", "dragonfly",
    "illumos", "solaris", "vxworks", "fuchsia", "horizon", "espidf"] → t.unix = true

/-- Everything that is used is defined, and once. -/
structure Builds (t : Target) : Prop where
  /-- there is a backend, -/
  backend : ∃ b, sys t = some b ∧
    -- sources are what it watches,
    source t = some (watches b) ∧ (watches b = .fd → fdImports t = 1) ∧
    -- `as_fd` and `as_handle` of `Poller` find those of the backend,
    (rawFdImpl t = true → hasFd b = true) ∧ (rawHandleImpl t = true → hasHandle b = true) ∧
    -- the extension modules find the backend they are written for (os/kqueue.rs:3 and os/iocp.rs:3 use items of `sys`),
    (extKqueue t = true → b = .kqueue) ∧ (extIocp t = true → b = .iocp) ∧
    -- the modules of the backend are there, once,
    (b = .poll → pollSyscall t = 1 ∧ (pollPipe t).toNat + (pollEventfd t).toNat = 1 ∧ (pollEventfd t = true → syscallEventfd t = true)) ∧
    (b = .kqueue → (kqueueUser t).toNat + (kqueuePair t).toNat = 1) ∧
    -- and so are the other crates
    (b ∈ [.epoll, .kqueue, .port] → rustix t = true) ∧ (b = .poll → rustix t = true ∨ (t.os = "hermit" ∧ hermitAbi t = true)) ∧
    (b = .iocp → windowsSys t = true)

end Polling.TgtSpec
