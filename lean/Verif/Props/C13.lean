import Verif.Proof.PollHistory

/-!
C13: on the poll backend any sequence of calls behaves like a map from descriptor to registration.
-/

namespace Polling.C13
open PollB PollFlags PollSpec

/-- The empty map. -/
abbrev empty : Map := fun _ => none

/-- Every history of registration calls and waits on a new poller runs without a panic and shows exactly what the
map shows, as long as no registered descriptor is modified to a mode the backend does not support (then the call
fails as it should but is not without effect, see `C17.poll_failed_modify_changes_registration`). -/
theorem poll_refines_map (n : NotifyFds) (steps : List Step)
    (ho : OrdersOk apply n.spec empty steps) (hs : NoUnsupportedModify n.spec empty steps) :
    run n (Fds.init n) steps = some (runSpec apply n.spec empty steps) := by
  obtain ⟨a, _, c⟩ := runSpec_congr n.spec steps empty hs
  rw [← a]
  exact run_spec n steps _ _ (init_inv n) (init_rel n) (c ho)

/-- The same without that restriction, for the map in which a rejected `modify` replaces key and interest. -/
theorem poll_refines_map_as_coded (n : NotifyFds) (steps : List Step)
    (ho : OrdersOk applyAsCoded n.spec empty steps) :
    run n (Fds.init n) steps = some (runSpec applyAsCoded n.spec empty steps) :=
  run_spec n steps _ _ (init_inv n) (init_rel n) ho

/-- No history panics. -/
theorem poll_never_panics (n : NotifyFds) (steps : List Step)
    (ho : OrdersOk applyAsCoded n.spec empty steps) : (run n (Fds.init n) steps).isSome = true := by
  rw [poll_refines_map_as_coded n steps ho]; rfl

/-- Results of the calls alone, for every sequence of registration calls (no traversal order involved). -/
theorem poll_call_results (n : NotifyFds) (ops : List Op) :
    run n (Fds.init n) (ops.map .call) = some (runSpec applyAsCoded n.spec empty (ops.map .call)) := by
  apply poll_refines_map_as_coded
  generalize empty = m
  induction ops generalizing m with
  | nil => trivial
  | cons op rest ih => exact ⟨trivial, ih _⟩

/-- A registered descriptor cannot be added, an unregistered one cannot be modified or deleted, the poller's own
descriptors are refused, after any history. -/
theorem poll_call_errors (n : NotifyFds) (steps : List Step) (m : Map)
    (hm : m = mapAfter applyAsCoded n.spec empty steps) (ho : OrdersOk applyAsCoded n.spec empty steps)
    (fd : Fd) (ev : Event EventExtra) (mode : PollMode) :
    (fd = n.readFd ∨ fd = n.writeFd → ∀ op ∈ [Op.add fd ev mode, .modify fd ev mode, .delete fd],
      run n (Fds.init n) (steps ++ [.call op]) =
        some (runSpec applyAsCoded n.spec empty steps ++ [.res (.err .invalidInput)])) ∧
    (fd ≠ n.readFd → fd ≠ n.writeFd → (m fd).isSome = true → 
      run n (Fds.init n) (steps ++ [.call (.add fd ev mode)]) =
        some (runSpec applyAsCoded n.spec empty steps ++ [.res (.err .alreadyExists)])) ∧
    (fd ≠ n.readFd → fd ≠ n.writeFd → (m fd).isSome = false → ∀ op ∈ [Op.modify fd ev mode, .delete fd],
      run n (Fds.init n) (steps ++ [.call op]) =
        some (runSpec applyAsCoded n.spec empty steps ++ [.res (.err .notFound)])) := by
  have ho' : ∀ op, OrdersOk applyAsCoded n.spec empty (steps ++ [.call op]) := by
    intro op
    revert ho
    generalize empty = m0
    clear hm
    induction steps generalizing m0 with
    | nil => intro _; exact ⟨trivial, trivial⟩
    | cons s rest ih => intro ho; exact ⟨ho.1, ih _ ho.2⟩
  have key : ∀ op, run n (Fds.init n) (steps ++ [.call op]) =
      some (runSpec applyAsCoded n.spec empty steps ++ [.res (applyAsCoded n.hasFd m op).1]) := by
    intro op
    rw [poll_refines_map_as_coded n _ (ho' op), runSpec_append, ← hm]
    rfl
  have hown : n.hasFd fd = true ↔ fd = n.readFd ∨ fd = n.writeFd := by
    simp only [NotifyFds.hasFd, Bool.or_eq_true, beq_iff_eq]
    exact ⟨fun h => h.imp Eq.symm Eq.symm, fun h => h.imp Eq.symm Eq.symm⟩
  have hother : fd ≠ n.readFd → fd ≠ n.writeFd → n.hasFd fd = false := by
    intro h1 h2; simp [NotifyFds.hasFd, Ne.symm h1, Ne.symm h2]
  refine ⟨fun hf op hop => ?_, fun h1 h2 hsome => ?_, fun h1 h2 hnone op hop => ?_⟩
  · rw [key]
    have hf := hown.2 hf
    simp only [List.mem_cons, List.not_mem_nil, or_false] at hop
    rcases hop with rfl | rfl | rfl <;> simp [applyAsCoded, apply, hf]
  · rw [key]; simp [applyAsCoded, apply, hother h1 h2, hsome]
  · rw [key]
    have hf := hother h1 h2
    have : m fd = none := by simpa using hnone
    simp only [List.mem_cons, List.not_mem_nil, or_false] at hop
    rcases hop with rfl | rfl <;> simp [applyAsCoded, apply, hf, this]

/-! A history that meets the hypotheses: three additions, a deletion that moves the last entry, waits, and
errors. -/

def exN : NotifyFds := ⟨3, 4, IN⟩

def exSteps : List Step :=
  [.call (.add 7 (Event.onlyReadable 70) .oneshot), .call (.add 8 (Event.onlyWritable 80) .level),
   .call (.add 9 (Event.onlyReadable 90) .oneshot), .call (.add 8 (Event.all 81) .level), .call (.delete 7),
   .call (.delete 7), .call (.modify 4 (Event.all 1) .level),
   .round (fun fd ask => if fd = 9 then ask &&& IN else if fd = 3 then IN else 0#16) [9, 8] false,
   .round (fun fd ask => if fd = 9 then ask &&& IN else 0#16) [8, 9] false,
   .round (fun fd _ => if fd = 3 then IN else 0#16) [8, 9] false]

example : OrdersOk apply exN.spec empty (exSteps.take 8) ∧ NoUnsupportedModify exN.spec empty exSteps := by
  refine ⟨⟨trivial, trivial, trivial, trivial, trivial, trivial, trivial, ⟨by decide, fun fd => ?_⟩, trivial⟩, ?_⟩
  · simp [stepSpec, apply, exN, NotifyFds.spec, NotifyFds.hasFd, empty, Map.set, supported]
    split <;> (try split) <;> (try split) <;> simp_all
  · exact ⟨trivial, trivial, trivial, trivial, trivial, trivial, .inl rfl, trivial, trivial, trivial, trivial⟩

example : run exN (Fds.init exN) exSteps =
    some [.res .ok, .res .ok, .res .ok, .res (.err .alreadyExists), .res .ok, .res (.err .notFound),
      .res (.err .invalidInput), .events [⟨90, true, false, ⟨IN⟩⟩], .events [], .again] := by decide

end Polling.C13
