import Verif.Proof.PacketRcLost

/-! C47: the packets that Windows works on stay in memory, and none is used after it was freed. -/

namespace Polling.C47
open Iocp IocpM IocpM.Rc

/-- In every execution, with any number of threads, with refused operations, with packets that the user clones and drops, and
with the poller being dropped at any time when no call is in progress: no packet is accessed, cloned or dropped after it was
freed, neither by the library nor by the kernel nor by a callback. -/
theorem no_use_after_free {n P r} (h : Rc.Reach n P r) : r.h.bad = false := (reach_inv h).good

/-- While the kernel may write into a packet, or has a completion entry with its address, the packet is in memory; also when the
poller is gone. -/
theorem kernel_packets_in_memory {n P r} (h : Rc.Reach n P r) (p : PId)
    (hp : (∃ k m b, r.s.c.pk p = .socket k ∧ k.op = .inFlight m b) ∨ (∃ w, r.s.c.pk p = .waitable w ∧ w.registered = true) ∨
      p ∈ r.s.c.port ∨ p ∈ r.s.cb ∨ p ∈ r.s.cbPost) : 0 < r.h.rc p := by
  have hi := reach_inv h
  rw [hi.bal p]
  unfold refs locals coreRefs
  rcases hp with ⟨k, m, b, h1, h2⟩ | ⟨w, h1, h2⟩ | h1 | h1 | h1
  · have : kern (r.s.c.pk p) = 1 := by rw [h1]; simp [kern, h2]
    omega
  · have : kern (r.s.c.pk p) = 1 := by rw [h1]; simp [kern, h2]
    omega
  · have := List.count_pos_iff.2 h1; omega
  · have := List.count_pos_iff.2 h1; omega
  · have := List.count_pos_iff.2 h1; omega

/-- What is registered is in memory. -/
theorem registered_in_memory {n P r} (h : Rc.Reach n P r) {k fd p} (ht : r.s.c.table k fd = some p) : 0 < r.h.rc p := by
  have hi := reach_inv h
  rw [hi.bal p]
  have : inTable r.s.c p = true := by rw [inTable_ident, hi.ok.ids k fd p ht]; simp [ht]
  unfold refs coreRefs
  rw [this]
  simp only [if_true]
  omega

/-- A packet the user has is in memory, also when the poller is gone. -/
theorem user_packets_in_memory {n P r} (h : Rc.Reach n P r) {p} (hu : r.user p ≠ 0) : 0 < r.h.rc p := by
  have hi := reach_inv h
  rw [hi.bal p]
  unfold refs
  omega

/-- A packet that was freed stays freed. -/
theorem freed_stays_freed {n P r a r'} (h : Rc.Reach n P r) (hs : rstep n r a = some r') {p} (hp : p < r.s.c.next) (h0 : r.h.rc p = 0) :
    r'.h.rc p = 0 := by
  have hi' := inv_step (reach_inv h) hs
  have hne : p ≠ r.s.c.next := by omega
  have key : ∀ ops, (r.h.run ops).bad = false → .alloc p ∉ ops → (r.h.run ops).rc p = 0 := fun ops hb hn => run_zero ops r.h p hb h0 hn
  cases a with
  | act a =>
    simp only [rstep] at hs
    have ha : .alloc p ∉ actOps r.s a := by
      cases a with
      | go t fault =>
        simp only [actOps, goOps]
        cases r.s.pc t with
        | table call => cases call <;> dsimp only <;> (try split) <;> simp [hne]
        | set call q =>
          cases call with
          | modify k fd ev mode => dsimp only; split <;> simp
          | _ => simp
        | upd call u => exact alloc_ustep
        | _ => simp
      | newPacket ev => simp [actOps, hne]
      | wait fault => exact alloc_wait
      | _ => simp [actOps]
    split at hs
    · split at hs
      · obtain ⟨x, _, rfl⟩ := Option.map_eq_some_iff.1 hs
        exact key _ hi'.good ha
      · cases hs
    · cases a <;> simp only [deadStep] at hs
      case complete q res =>
        obtain ⟨x, _, rfl⟩ := Option.map_eq_some_iff.1 hs
        exact key _ hi'.good (by simp)
      case fire q => obtain ⟨x, _, rfl⟩ := Option.map_eq_some_iff.1 hs; exact h0
      case callback q =>
        split at hs <;> cases hs
        exact key _ hi'.good (by simp)
      case callbackPost q fault => obtain ⟨x, _, rfl⟩ := Option.map_eq_some_iff.1 hs; exact h0
      case newPacket ev =>
        obtain ⟨x, _, rfl⟩ := Option.map_eq_some_iff.1 hs
        exact key _ hi'.good ha
      all_goals cases hs
  | userClone q =>
    simp only [rstep] at hs
    split at hs <;> cases hs
    exact key _ hi'.good (by simp)
  | userDrop q =>
    simp only [rstep] at hs
    split at hs <;> cases hs
    exact key _ hi'.good (by simp)
  | dropPoller =>
    simp only [rstep, dropPoller] at hs
    split at hs <;> cases hs
    exact key _ hi'.good (by simp)

/-- The events and steps of the example below. -/
def ev : Event EventExtra := ⟨7, true, false, ⟨0#32⟩⟩

/-- A socket is registered and polled; the poller is dropped while the operation is in flight, and the kernel completes it. -/
def dropped : List RAct :=
  [.act (.call 0 (.add true 3 ev .oneshot)), .act (.go 0 none), .act (.go 0 none), .act (.go 0 none), .act (.go 0 none), .act (.go 0 none),
   .act (.waitBegin true 1024), .act (.wait none), .act (.wait none), .act (.wait none), .act (.wait none), .act (.wait none), .act .get,
   .act (.wait none), .act (.decide true), .act (.wait none), .dropPoller]

-- the packet is in flight, in memory and nobody but the kernel has it
example : (runR 1 Rc.init dropped).map (fun r => (r.h.rc 1, r.alive, (r.s.c.table true 3).isSome, r.h.bad,
    match r.s.c.pk 1 with | .socket k => (match k.op with | .inFlight .. => true | _ => false) | _ => false)) =
    some (1, false, false, false, true) := by decide +kernel
-- the kernel's write is to memory that is there
example : (runR 1 Rc.init (dropped ++ [.act (.complete 1 .error)])).map (fun r => (r.h.rc 1, r.h.bad)) = some (1, false) := by
  decide +kernel

end Polling.C47
