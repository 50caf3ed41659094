/-!
Readable specification of readiness words, independent of the model's masks.

`Reported f c` says that the OS word `f` contains condition number `c`; the condition numbers are the bit
positions in the OS headers.
-/

namespace Polling.Spec

/-- Condition number `c` is present in the word `f`. -/
def Reported {n : Nat} (f : BitVec n) (c : Nat) : Prop := f.getLsbD c = true

instance {n : Nat} (f : BitVec n) (c : Nat) : Decidable (Reported f c) :=
  inferInstanceAs (Decidable (_ = _))

/-! Condition numbers of `<poll.h>` and `<sys/epoll.h>` (they agree on these). -/
/-- data to read -/
def cIn : Nat := 0
/-- urgent data to read -/
def cPri : Nat := 1
/-- writing possible -/
def cOut : Nat := 2
/-- error condition -/
def cErr : Nat := 3
/-- hang up -/
def cHup : Nat := 4
/-- invalid descriptor (poll only) -/
def cNval : Nat := 5
/-- priority data may be written (poll only) -/
def cWrband : Nat := 9
/-- one-shot registration (epoll only) -/
def cOneshot : Nat := 30
/-- edge-triggered registration (epoll only) -/
def cEt : Nat := 31

/-! Condition numbers of `AFD_POLL_*`. -/
/-- normal data to read -/
def aReceive : Nat := 0
/-- urgent data to read -/
def aReceiveExpedited : Nat := 1
/-- writing possible -/
def aSend : Nat := 2
/-- peer shut down sending -/
def aDisconnect : Nat := 3
/-- connection aborted -/
def aAbort : Nat := 4
/-- socket closed locally -/
def aLocalClose : Nat := 5
/-- connection to accept -/
def aAccept : Nat := 7
/-- connect failed -/
def aConnectFail : Nat := 8

end Polling.Spec
