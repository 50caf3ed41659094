import Verif.Model.Flags
import Verif.Spec.Flags

/-! What a registration with epoll watches, by condition numbers.  Independent of the model's masks. -/

namespace Polling.Spec

/-- The conditions an interest watches: those of readability and writability if asked for, the extra ones in the
event, and always error and hang-up. -/
def EpollWatches (ev : Event Epoll.EventExtra) (c : Nat) : Prop :=
  (ev.readable = true ∧ (c = cIn ∨ c = cPri)) ∨ (ev.writable = true ∧ c = cOut) ∨
  c = cErr ∨ c = cHup ∨ Reported ev.extra.flags c

/-- A watched condition holds, the file being in the conditions `now`.  (Numbers from 28 on are options.) -/
def EpollPending (ev : Event Epoll.EventExtra) (now : Epoll.Flags) : Prop :=
  ∃ c, c < 28 ∧ Reported now c ∧ EpollWatches ev c

end Polling.Spec
