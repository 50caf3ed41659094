import Verif.Model.Base

/-!
Specification of the extra information of an event (C36): an event is a plain record of a key, two
interest booleans, and three independent booleans "interrupt", "priority", "error".
-/

namespace Polling.Spec

/-- A call of one of the setters of `Event`. -/
inductive SetCall where
  /-- `set_interrupt(b)` -/
  | interrupt (b : Bool)
  /-- `with_interrupt()` -/
  | withInterrupt
  /-- `set_priority(b)` -/
  | priority (b : Bool)
  /-- `with_priority()` -/
  | withPriority
  /-- `clear_extra()` -/
  | clear
  /-- `with_no_extra()` -/
  | withNoExtra
deriving DecidableEq, Repr

/-- What the user sees of an event. -/
structure View where
  key : Key
  readable : Bool
  writable : Bool
  interrupt : Bool
  priority : Bool
  error : Option Bool
deriving DecidableEq, Repr

/-- The intended meaning of a setter call. -/
def View.apply (v : View) : SetCall → View
  | .interrupt b => { v with interrupt := b }
  | .withInterrupt => { v with interrupt := true }
  | .priority b => { v with priority := b }
  | .withPriority => { v with priority := true }
  | .clear | .withNoExtra => { v with interrupt := false, priority := false, error := some false }

variable {X : Type} [Extra X]

/-- Everything the API shows of an event. -/
def view (e : Event X) : View :=
  { key := e.key, readable := e.readable, writable := e.writable
    interrupt := e.isInterrupt, priority := e.isPriority, error := e.isErr }

/-- Perform one setter call through the API. -/
def call (e : Event X) : SetCall → Event X
  | .interrupt b => e.setInterrupt b
  | .withInterrupt => e.withInterrupt
  | .priority b => e.setPriority b
  | .withPriority => e.withPriority
  | .clear => e.clearExtra
  | .withNoExtra => e.withNoExtra

end Polling.Spec
