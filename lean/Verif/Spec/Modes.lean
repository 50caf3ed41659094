import Verif.Model.Base

/-! What `supports_level` and `supports_edge` promise (lib.rs:141-182, documentation of `PollMode`). -/

namespace Polling.Spec

/-- One-shot always works; level mode iff `supports_level()`; the edge modes iff `supports_edge()`. -/
def modeWorks (level edge : Bool) : PollMode → Bool
  | .oneshot => true
  | .level => level
  | .edge | .edgeOneshot => edge

end Polling.Spec
