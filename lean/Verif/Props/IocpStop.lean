import Verif.Proof.IocpStop
import Verif.Props.IocpSync
import Verif.Props.C32

/-! IOCP: what is left of a deleted socket (C19, C26), and what the OS does for a waitable handle (C32). -/

namespace Polling.C19
open IocpM Iocp IocpSpec

/-- After a `delete` of a socket returned, if the OS refuses nothing, the OS no longer watches the socket: there is no AFD
operation for it, or a cancelled one, or a completed one that a `wait` will process (and of which no event is delivered, see
`iocp_nothing_after_delete`).  (Partial: if the OS refuses the cancellation, the operation stays, see `iocp_uncancelled_stays`.) -/
theorem iocp_delete_stops_partial (n : Nat) (s : S) (tr : List IObs) (h : Reach n Accepts s tr) (p : PId) (q : Reg)
    (hr : reg tr p = some q) (hk : q.sock = true) (he : q.ended = true) :
    ∃ k, s.c.pk p = .socket k ∧ (k.op = .none ∨ (∃ m, k.op = .inFlight m true) ∨
      (∃ r, k.op = .done r) ∧ p ∈ s.phase.batch ++ s.c.port) := by
  have hid := ident_reg (reach_ti h) hr
  rw [hk] at hid
  have hrg := (reach_ti h).regs p
  have hfit := reach_fits (fun _ _ h => h) h p
  have hst := reach_stopped h p fun t k fd r => deleted_ok (fun _ _ h => h) h t k fd p r
  cases hp : s.c.pk p with
  | socket k =>
    rw [hp] at hrg hfit hst
    obtain ⟨q', hq, _, _, _, _, hend, _⟩ := hrg
    rw [hr] at hq; cases hq
    have hst := hst (hend he)
    have hdone : ∀ r, k.op = .done r → p ∈ s.phase.batch ++ s.c.port := by
      intro r hr
      have := reach_ops h hp
      rw [hr] at this
      exact List.count_pos_iff.1 (by rw [this]; exact Nat.one_pos)
    refine ⟨k, rfl, ?_⟩
    simp only [Fits] at hfit
    split at hfit
    · exact .inl hfit.1
    · rename_i f hf; exact absurd hf (hst f)
    · rcases hfit with ⟨f, hfit⟩ | ⟨r, hfit⟩
      · exact .inr (.inl ⟨f, hfit⟩)
      · exact .inr (.inr ⟨⟨r, hfit⟩, hdone r hfit⟩)
  | _ => rw [hp] at hid; cases hid

/-- The AFD operation of a packet, if it is one of a socket. -/
def opOf (s : S) (p : PId) : Option Op := match s.c.pk p with | .socket k => some k.op | _ => none

/-- A run that meets the conditions: a socket is polled for, then deleted; the operation is in flight, cancelled. -/
example : (runActs 3 init (addActs 0 true 7 (Event.onlyReadable 5) .level ++ blockActs 1 4 ++ delActs 1 true 7)).map
      (fun r => ((reg r.2 1).map Reg.ended, opOf r.1 1)) = some (some true, some (.inFlight 0x19b#32 true)) := by decide +kernel

/-- The remaining case: the OS refuses the cancellation; `delete` fails, the source is no longer registered, and the operation
stays in flight (until the socket is ready or closed). -/
theorem iocp_uncancelled_stays :
    ∃ s tr, Reach 3 Any s tr ∧ .deleted 1 true 7 1 (.err (.os 5)) ∈ tr ∧ registered tr true 7 = none ∧ opOf s 1 = some (.inFlight 0x19b#32 false) := by
  obtain ⟨s, tr, h, hc⟩ := witness (addActs 0 true 7 (Event.onlyReadable 5) .level ++ blockActs 1 4 ++
      [.call 1 (.delete true 7), .go 1 none, .go 1 (some (.os 5))])
    (fun s tr => decide (.deleted 1 true 7 1 (.err (.os 5)) ∈ tr) && decide (registered tr true 7 = none) &&
      decide (opOf s 1 = some (.inFlight 0x19b#32 false))) (by decide +kernel)
  simp only [Bool.and_eq_true, decide_eq_true_eq] at hc
  exact ⟨s, tr, h, hc.1.1, hc.1.2, hc.2⟩

end Polling.C19

namespace Polling.C32
open IocpM Iocp IocpSpec

/-- If the OS refuses nothing, a registered waitable handle that is armed and for which no update is pending is waited for by
the OS, or a signal of it is on its way to `wait`: the callback is dispatched, about to post, or its completion is in the
port or taken by `wait`.  So no interleaving of signals, callbacks and modifications disarms a handle.  (Partial: a wait the
OS refuses to register is forgotten, as in `C26.iocp_refused_is_forgotten`.) -/
theorem waitable_in_sync_partial (n : Nat) (s : S) (tr : List IObs) (h : Reach n Accepts s tr) (fd : Fd) (p : PId) (q : Reg)
    (hreg : registered tr false fd = some p) (hq : reg tr p = some q) (ha : armed q = true)
    (hi : q.ev.readable = true ∨ q.ev.writable = true) (hh : ¬ Holder s p) :
    ∃ w, s.c.pk p = .waitable w ∧ (w.registered = true ∨ p ∈ s.cb ∨ p ∈ s.cbPost ∨ p ∈ s.phase.batch ++ s.c.port) := by
  have hti := reach_ti h
  rw [hti.tab] at hreg
  have hid := hti.ids _ _ _ hreg
  have hcov := reach_cov (fun _ _ h => h) h p
  have hrg := hti.regs p
  cases hp : s.c.pk p with
  | waitable w =>
    rw [hp] at hcov hrg
    obtain ⟨q', hq', _, _, _, _, hint⟩ := hrg
    rw [hq] at hq'; cases hq'
    obtain ⟨h1, h2⟩ := reach_wtb h p w hp
    have hint : w.interest = q.ev := by
      rw [hint]
      unfold interestOf
      unfold armed at ha
      rw [if_neg]
      rintro ⟨a, b⟩
      simp [a, b] at ha
    refine ⟨w, rfl, ?_⟩
    cases hst : w.status with
    | cancelled => exact absurd hreg (h2 hst _ _)
    | waiting =>
      rcases h1 hst with h | h
      · exact .inl h
      · exact .inr (.inl h)
    | idle =>
      rcases hcov ⟨hst, by rw [hint]; exact hi⟩ with h | ⟨_, h | h⟩
      · exact absurd h hh
      · exact .inr (.inr (.inl h))
      · exact .inr (.inr (.inr h))
  | _ => rw [hp] at hid; cases hid

/-- Whether the OS waits for the handle of the packet. -/
def waitedFor (s : S) (p : PId) : Option Bool := match s.c.pk p with | .waitable w => some w.registered | _ => none

/-- A run that meets the conditions: a handle is registered while a `wait` blocks, is signalled, and its event delivered; the
next `wait` makes the OS wait for it again. -/
example : (runActs 3 init (blockActs 0 4 ++ addActs 0 false 7 (Event.onlyReadable 5) .level ++
      [.fire 1, .callback 1, .callbackPost 1 none] ++ takeActs ++ blockActs 1 4)).map
      (fun r => ((reg r.2 1).map (fun q => (armed q, q.ev.readable)), deliveries 1 r.2, waitedFor r.1 1, decide (r.1.c.pending = []))) =
    some (some (true, true), 1, some true, true) := by decide +kernel

end Polling.C32
