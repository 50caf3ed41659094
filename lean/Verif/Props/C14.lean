import Verif.Proof.PollHistory
import Verif.Props.C13

/-!
C14: a wait of the poll backend reports exactly the ready descriptors, each once.
-/

namespace Polling.C14
open PollB PollFlags PollSpec C13

theorem waitEvents_eq (os : Fd → Flags → Flags) (m : Map) (order : List Fd) :
    waitEvents os m order =
      (order.filter fun fd => result os m fd != 0#16).map fun fd =>
        ((m fd).getD ⟨0#64, false, false, false⟩).report (result os m fd) := by
  unfold waitEvents
  induction order with
  | nil => rfl
  | cons fd order ih =>
    rw [List.filterMap_cons, List.filter_cons]
    cases hm : m fd with
    | none =>
      have : result os m fd = 0#16 := by simp [result, hm]
      simp only [this]
      simpa using ih
    | some r =>
      have hres : result os m fd = os fd r.ask := by simp [result, hm]
      by_cases hz : os fd r.ask = 0#16
      · simp only [hres, hz, Option.bind_some]
        simpa using ih
      · rw [ih]
        simp [hres, hz, hm]

/-- After any history, if a wait finishes with the OS results `os`, then the stored events are, for a duplicate-free
list of exactly the registered descriptors with a non-empty result, one event each, with the key of that
registration and the flags of that result.  The result is what the OS answers to the interest that is asked for.
`order` is the traversal order of the hash map and does not matter. -/
theorem poll_wait_reports_exactly (n : NotifyFds) (steps : List Step) (os : Fd → Flags → Flags) (order : List Fd)
    (notified : Bool) (outs : List Out) (evs : List (Event EventExtra))
    (ho : OrdersOk applyAsCoded n.spec empty (steps ++ [.round os order notified]))
    (hrun : run n (Fds.init n) (steps ++ [.round os order notified]) = some (outs ++ [.events evs])) :
    ∃ ready : List Fd, ready.Nodup ∧
      (∀ fd, fd ∈ ready ↔ ∃ r, mapAfter applyAsCoded n.spec empty steps fd = some r ∧ os fd r.ask ≠ 0#16) ∧
      evs.length = ready.length ∧
      ∀ (i : Nat) (fd : Fd), ready[i]? = some fd → ∃ r, mapAfter applyAsCoded n.spec empty steps fd = some r ∧
        evs[i]? = some (
          { key := r.key
            readable := decide (∃ c ∈ [IN, PRI, HUP, ERR], os fd r.ask &&& c ≠ 0#16)
            writable := decide (∃ c ∈ [OUT, WRBAND, HUP, ERR], os fd r.ask &&& c ≠ 0#16)
            extra := ⟨os fd r.ask⟩ } : Event EventExtra) := by
  rw [poll_refines_map_as_coded n _ ho, runSpec_append] at hrun
  have hl : ListsAll order (mapAfter applyAsCoded n.spec empty steps) := by
    revert ho
    generalize empty = m0
    clear hrun
    revert m0
    induction steps with
    | nil => intro m0 ho; exact ho.1
    | cons s rest ih => intro m0 ho; exact ih (stepSpec applyAsCoded n.spec m0 s).2 ho.2
  revert hrun hl
  generalize mapAfter applyAsCoded n.spec empty steps = m
  intro hrun hl
  have hlast := List.append_inj_right' (Option.some.inj hrun) rfl
  simp only [runSpec, stepSpec] at hlast
  split at hlast
  · simp at hlast
  · simp only [List.cons.injEq, Out.events.injEq, and_true] at hlast
    refine ⟨order.filter fun fd => result os m fd != 0#16, hl.1.filter _, fun fd => ?_, ?_, ?_⟩
    · rw [List.mem_filter, hl.2]
      cases hm : m fd <;> simp [result, hm]
    · rw [← hlast, waitEvents_eq, List.length_map]
    · intro i fd hi
      have hmem := List.mem_of_getElem? hi
      rw [List.mem_filter, hl.2] at hmem
      obtain ⟨r, hr⟩ := Option.isSome_iff_exists.1 hmem.1
      refine ⟨r, hr, ?_⟩
      rw [← hlast, waitEvents_eq, List.getElem?_map, hi]
      simp [hr, Reg.report, result]

/-- The traversal order only permutes the events. -/
theorem poll_order_irrelevant (os : Fd → Flags → Flags) (m : Map) (order order' : List Fd)
    (h : ListsAll order m) (h' : ListsAll order' m) :
    (waitEvents os m order).Perm (waitEvents os m order') := by
  unfold waitEvents
  refine List.Perm.filterMap _ ?_
  exact (List.perm_ext_iff_of_nodup h.1 h'.1).2 fun fd => by rw [h.2, h'.2]

/-- The loop goes round again exactly if nothing was ready and only a registration call (not `notify`) woke it. -/
theorem poll_again_iff (n : NotifyFds) (steps : List Step) (os : Fd → Flags → Flags) (order : List Fd)
    (notified : Bool) (outs : List Out) (o : Out)
    (ho : OrdersOk applyAsCoded n.spec empty (steps ++ [.round os order notified]))
    (hrun : run n (Fds.init n) (steps ++ [.round os order notified]) = some (outs ++ [o])) :
    o = .again ↔ notified = false ∧ os n.readFd n.flags ≠ 0#16 ∧
      ∀ fd r, mapAfter applyAsCoded n.spec empty steps fd = some r → os fd r.ask = 0#16 := by
  rw [poll_refines_map_as_coded n _ ho, runSpec_append] at hrun
  have hl : ListsAll order (mapAfter applyAsCoded n.spec empty steps) := by
    revert ho
    generalize empty = m0
    clear hrun
    revert m0
    induction steps with
    | nil => intro m0 ho; exact ho.1
    | cons s rest ih => intro m0 ho; exact ih (stepSpec applyAsCoded n.spec m0 s).2 ho.2
  revert hrun hl
  generalize mapAfter applyAsCoded n.spec empty steps = m
  intro hrun hl
  have hlast := List.append_inj_right' (Option.some.inj hrun) rfl
  simp only [runSpec, stepSpec, List.cons.injEq, and_true] at hlast
  have hq : (∀ fd ∈ order, result os m fd = 0#16) ↔ ∀ fd r, m fd = some r → os fd r.ask = 0#16 := by
    constructor
    · intro h fd r hr
      have := h fd ((hl.2 fd).2 (by simp [hr]))
      simpa [result, hr] using this
    · intro h fd hfd
      obtain ⟨r, hr⟩ := Option.isSome_iff_exists.1 ((hl.2 fd).1 hfd)
      simp [result, hr, h fd r hr]
  rw [← hq, ← hlast]
  show _ ↔ notified = false ∧ os n.spec.fd n.spec.flags ≠ 0#16 ∧ ∀ (fd : Fd), fd ∈ order → result os m fd = 0#16
  by_cases h : notified = false ∧ os n.spec.fd n.spec.flags ≠ 0#16 ∧ ∀ (fd : Fd), fd ∈ order → result os m fd = 0#16
  · rw [if_pos h]; simp only [true_iff]; exact h
  · rw [if_neg h]; simp only [reduceCtorEq, false_iff]; exact h

/-- Two of three descriptors ready, one of them with a hang-up: two events, in traversal order. -/
example : run exN (Fds.init exN)
    [.call (.add 7 (Event.onlyReadable 70) .oneshot), .call (.add 8 (Event.onlyWritable 80) .level),
     .call (.add 9 (Event.onlyReadable 90) .oneshot),
     .round (fun fd ask => if fd = 9 then ask &&& IN else if fd = 8 then HUP else 0#16) [8, 7, 9] false] =
    some [.res .ok, .res .ok, .res .ok, .events [⟨80, true, true, ⟨HUP⟩⟩, ⟨90, true, false, ⟨IN⟩⟩]] := by decide

end Polling.C14
