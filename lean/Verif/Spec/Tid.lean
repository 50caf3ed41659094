/-! Threads are numbers. -/

/-- A thread. -/
notation "Tid" => Nat
