import Verif.Props.IocpDelivery
import Verif.Spec.Modes
import Verif.Model.Modes

/-! IOCP: registration calls (C17, C18, C24, C40). -/

namespace Polling.C17
open IocpM Iocp IocpSpec Spec

/-- IOCP: for an `add` or `modify`, of a socket or a waitable handle, with a key that is not reserved: the mode is accepted, and the call
goes on, if it is supported; otherwise the call fails and nothing changes. -/
theorem iocp_rejects_exactly (n : Nat) (s : S) (t : Tid) (ht : t < n) (hout : s.pc t = .out) (k : Bool) (fd : Fd) (ev : Event EventExtra)
    (hb : buildable ev = true) (hk : ev.key ≠ NOTIFY_KEY) (mode : PollMode) (call : Call)
    (hc : call = .add k fd ev mode ∨ call = .modify k fd ev mode) :
    (modeWorks supportsLevel supportsEdge mode = true → ∃ pc, step n s (.call t call) = some ({ s with pc }, .begin t call)) ∧
    (modeWorks supportsLevel supportsEdge mode = false → step n s (.call t call) = some (s, .ret t call (.err .invalidInput))) := by
  have h1 : callBuildable call = true := by rcases hc with rfl | rfl <;> exact hb
  have h2 : reserved call = false := by
    rcases hc with rfl | rfl <;> cases k <;> simp [reserved, hk]
  have h3 : callMode call = mode := by rcases hc with rfl | rfl <;> rfl
  have h4 : ¬ t ≥ n := by omega
  constructor
  · intro hm
    have h5 : edge mode = false := by cases mode <;> simp_all [modeWorks, supportsLevel, supportsEdge, edge]
    simp only [step, if_neg h4, hout, h1, h2, h3, h5]
    exact ⟨_, rfl⟩
  · intro hm
    have h5 : edge mode = true := by cases mode <;> simp_all [modeWorks, supportsLevel, supportsEdge, edge]
    simp only [step, if_neg h4, hout, h1, h2, h3, h5]
    rfl

example : exTrace [.call 0 (.add true 7 (Event.all 1) .edge)] = some [.ret 0 (.add true 7 (Event.all 1) .edge) (.err .invalidInput)] ∧
    exTrace [.call 0 (.add true 7 (Event.all 1) .level)] = some [.begin 0 (.add true 7 (Event.all 1) .level)] := by decide

end Polling.C17

namespace Polling.C18
open IocpM Iocp IocpSpec

/-- IOCP: what a call does when it accesses the table of sources depends only on whether the source is registered: `add` of a registered
source fails with `AlreadyExists`, `modify` of another with `NotFound`, and neither changes anything (only the position of the
thread); `delete` of a source that is not registered returns `Ok` and changes nothing.  Otherwise the calls go on. -/
theorem iocp_results (n : Nat) (P) (s : S) (tr : List IObs) (h : Reach n P s tr) (t : Tid) (ht : t < n) (fault : Option Err) (k : Bool) (fd : Fd)
    (ev : Event EventExtra) (mode : PollMode) :
    (s.pc t = .table (.add k fd ev mode) →
      (∀ p, registered tr k fd = some p → ∃ pc, step n s (.go t fault) = some ({ s with pc }, .ret t (.add k fd ev mode) (.err .alreadyExists))) ∧
      (registered tr k fd = none → ∃ s' p, step n s (.go t fault) = some (s', .inserted t k fd p ev mode) ∧ reg tr p = none)) ∧
    (s.pc t = .table (.modify k fd ev mode) →
      (registered tr k fd = none → ∃ pc, step n s (.go t fault) = some ({ s with pc }, .ret t (.modify k fd ev mode) (.err .notFound))) ∧
      (∀ p, registered tr k fd = some p → ∃ s' s'', step n s (.go t fault) = some (s', .tau) ∧
        step n s' (.go t none) = some (s'', .changed t k fd p ev mode))) ∧
    (s.pc t = .table (.delete k fd) →
      (registered tr k fd = none → ∃ pc, step n s (.go t fault) = some ({ s with pc }, .ret t (.delete k fd) .ok)) ∧
      (∀ p, registered tr k fd = some p → ∃ s' s'' r, step n s (.go t fault) = some (s', .removed t k fd p) ∧
        step n s' (.go t none) = some (s'', .deleted t k fd p r))) := by
  have hti := reach_ti h
  have h4 : ¬ t ≥ n := by omega
  refine ⟨?_, ?_, ?_⟩
  · intro hpc
    constructor
    · intro p hp
      rw [hti.tab] at hp
      simp only [step, if_neg h4, goCall, hpc, hp]
      exact ⟨_, rfl⟩
    · intro hp
      rw [hti.tab] at hp
      simp only [step, if_neg h4, goCall, hpc, hp]
      refine ⟨_, _, rfl, ?_⟩
      have := hti.regs s.c.next
      rw [hti.low _ (Nat.le_refl _)] at this
      exact this
  · intro hpc
    constructor
    · intro hp
      rw [hti.tab] at hp
      simp only [step, if_neg h4, goCall, hpc, hp]
      exact ⟨_, rfl⟩
    · intro p hp
      rw [hti.tab] at hp
      have h5 : ∃ s'', step n { s with pc := upd s.pc t (.set (.modify k fd ev mode) p) } (.go t none) = some (s'', .changed t k fd p ev mode) := by
        simp only [step, if_neg h4, goCall, upd_self]
        exact ⟨_, rfl⟩
      obtain ⟨s'', h5⟩ := h5
      refine ⟨_, s'', ?_, h5⟩
      simp only [step, if_neg h4, goCall, hpc, hp]
  · intro hpc
    constructor
    · intro hp
      rw [hti.tab] at hp
      simp only [step, if_neg h4, goCall, hpc, hp]
      exact ⟨_, rfl⟩
    · intro p hp
      rw [hti.tab] at hp
      have h5 : ∃ s'' r, step n { s with
          c := { s.c with table := fun k' x => if k' = k ∧ x = fd then none else s.c.table k' x }
          pc := upd s.pc t (.del (.delete k fd) p) } (.go t none) = some (s'', .deleted t k fd p r) := by
        simp only [step, if_neg h4, goCall, upd_self, callSock, callFd]
        exact ⟨_, _, rfl⟩
      obtain ⟨s'', r, h5⟩ := h5
      refine ⟨_, s'', r, ?_, h5⟩
      simp only [step, if_neg h4, goCall, hpc, hp]

/-- Double add, unknown modify, unknown delete; sockets and waitable handles do not interfere. -/
example : exTrace (addActs 0 true 7 (Event.all 1) .level ++ [.call 0 (.add true 7 (Event.all 2) .level), .go 0 none, .go 0 none] ++
      [.call 0 (.modify false 7 (Event.all 3) .level), .go 0 none] ++ [.call 0 (.delete true 8), .go 0 none]) =
    some [.ret 0 (.delete true 8) .ok, .begin 0 (.delete true 8),
      .ret 0 (.modify false 7 (Event.all 3) .level) (.err .notFound), .begin 0 (.modify false 7 (Event.all 3) .level),
      .ret 0 (.add true 7 (Event.all 2) .level) (.err .alreadyExists), .begin 0 (.add true 7 (Event.all 2) .level),
      .ret 0 (.add true 7 (Event.all 1) .level) .ok, .queued 1, .inserted 0 true 7 1 (Event.all 1) .level, .begin 0 (.add true 7 (Event.all 1) .level)] := by
  decide +kernel

end Polling.C18

namespace Polling.C24
open IocpM Iocp IocpSpec

/-- IOCP: an `add` that fails before it accesses the table (the base socket cannot be found, no AFD handle can be made) leaves nothing
behind.  Missing: an `add` that fails in `update_packet`, where the property is false, see `iocp_failed_add_is_remembered`. -/
theorem iocp_failed_add_partial (n : Nat) (s s' : S) (t : Tid) (call : Call) (fault : Option Err) (e : Err) (hpc : s.pc t = .prepare call)
    (hs : step n s (.go t fault) = some (s', .ret t call (.err e))) : s'.c = s.c ∧ s'.pc t = .out := by
  simp only [step, goCall, hpc] at hs
  split at hs
  · cases hs
  · split at hs
    · cases hs; exact ⟨rfl, upd_self _ _ _⟩
    · cases hs

/-- The violation: an `add` during a `wait` of another thread starts the AFD operation at once; the OS refuses it, and `add` returns the
error.  But the source stays in the table: adding it again fails with `AlreadyExists`. -/
theorem iocp_failed_add_is_remembered :
    ∃ s, Reach 3 Any s
      [.ret 0 (.add true 7 (Event.onlyReadable 6) .level) (.err .alreadyExists), .tau, .begin 0 (.add true 7 (Event.onlyReadable 6) .level),
       .ret 0 (.add true 7 (Event.onlyReadable 5) .level) (.err (.os 8)), .tau, .tau,
       .inserted 0 true 7 1 (Event.onlyReadable 5) .level, .tau, .begin 0 (.add true 7 (Event.onlyReadable 5) .level),
       .tau, .tau, .tau, .waitBegin] := by
  have hr : ((runActs 3 init (blockActs 0 4 ++ [.call 0 (.add true 7 (Event.onlyReadable 5) .level), .go 0 none, .go 0 none, .go 0 none,
      .go 0 (some (.os 8)), .go 0 none, .call 0 (.add true 7 (Event.onlyReadable 6) .level), .go 0 none, .go 0 none])).map Prod.snd) = some
      [.ret 0 (.add true 7 (Event.onlyReadable 6) .level) (.err .alreadyExists), .tau, .begin 0 (.add true 7 (Event.onlyReadable 6) .level),
       .ret 0 (.add true 7 (Event.onlyReadable 5) .level) (.err (.os 8)), .tau, .tau,
       .inserted 0 true 7 1 (Event.onlyReadable 5) .level, .tau, .begin 0 (.add true 7 (Event.onlyReadable 5) .level),
       .tau, .tau, .tau, .waitBegin] := by decide +kernel
  rw [Option.map_eq_some_iff] at hr
  obtain ⟨⟨s, o⟩, hr, rfl⟩ := hr
  exact ⟨s, by have := run_reach (P := Any) .init (fun _ _ _ => trivial) hr; rwa [List.append_nil] at this⟩

/-- A second `add` after a failure of the first kind is not a duplicate. -/
example : exTrace ([.call 0 (.add true 7 (Event.all 1) .level), .go 0 (some (.os 10038))] ++ addActs 0 true 7 (Event.all 2) .level) =
    some [.ret 0 (.add true 7 (Event.all 2) .level) .ok, .queued 1, .inserted 0 true 7 1 (Event.all 2) .level, .begin 0 (.add true 7 (Event.all 2) .level),
      .ret 0 (.add true 7 (Event.all 1) .level) (.err (.os 10038)), .begin 0 (.add true 7 (Event.all 1) .level)] := by
  decide +kernel

end Polling.C24

namespace Polling.C40
open IocpM Iocp IocpSpec

/-- IOCP, the portable calls: no socket is ever registered with the reserved key, so every event of a socket that a `wait` found and
returned is shown. -/
theorem iocp_portable_partial (n : Nat) (P) (s : S) (tr : List IObs) (h : Reach n P s tr) :
    (∀ p q, reg tr p = some q → q.sock = true → q.ev.key ≠ NOTIFY_KEY) ∧
    EveryDelivery (fun _ sock _ ev => sock = true → ev.key ≠ NOTIFY_KEY) tr := by
  refine ⟨reach_key h, ?_⟩
  intro later sock fd p ev earlier he hk
  subst hk
  obtain ⟨s0, a, s1, hr, _, hs⟩ := reach_split h later _ earlier he
  obtain ⟨q, h1, h2, h3, h4, _⟩ := delivered hr hs
  rw [(h4 rfl).2.1]
  exact reach_key hr p q h1 h2

/-- The extension calls accept the reserved key: `add_waitable` succeeds, the handle is signalled, and `wait` returns with no event;
`post` likewise. -/
theorem iocp_reserved_key_accepted :
    (∃ s tr, Reach 3 Any s (.waitOk 0 [] :: tr) ∧ .ret 0 (.add false 9 (Event.onlyReadable NOTIFY_KEY) .oneshot) .ok ∈ tr ∧
      .deliver false 9 1 (Event.onlyReadable NOTIFY_KEY) ∈ tr) ∧
    (∃ s tr, Reach 3 Any s (.waitOk 0 [] :: tr) ∧ .posted 1 (Event.all NOTIFY_KEY) ∈ tr ∧ .received 1 (Event.all NOTIFY_KEY) ∈ tr) := by
  have key : ∀ (acts : List Act) (o1 o2 : IObs), ((runActs 3 init acts).map fun r =>
      (decide (r.2.head? = some (.waitOk 0 [])), decide (o1 ∈ r.2.tail), decide (o2 ∈ r.2.tail))) = some (true, true, true) →
      ∃ s tr, Reach 3 Any s (.waitOk 0 [] :: tr) ∧ o1 ∈ tr ∧ o2 ∈ tr := by
    intro acts o1 o2 hr
    rw [Option.map_eq_some_iff] at hr
    obtain ⟨⟨s, o⟩, hr, he⟩ := hr
    simp only [Prod.mk.injEq, decide_eq_true_eq] at he
    obtain ⟨h1, h2, h3⟩ := he
    cases o with
    | nil => cases h1
    | cons x tr =>
      simp only [List.head?_cons, Option.some.injEq] at h1
      subst h1
      have := run_reach (P := Any) .init (fun _ _ _ => trivial) hr
      rw [List.append_nil] at this
      exact ⟨s, tr, this, h2, h3⟩
  constructor
  · exact key (addActs 0 false 9 (Event.onlyReadable NOTIFY_KEY) .oneshot ++ blockActs 1 4 ++ [.fire 1, .callback 1, .callbackPost 1 none] ++ takeActs)
      _ _ (by decide +kernel)
  · exact key ([.newPacket (Event.all NOTIFY_KEY), .post 1 none] ++ blockActs 0 4 ++ [.get, .wait none, .wait none, .decide false, .wait none])
      _ _ (by decide +kernel)

example : exTrace [.call 0 (.add true 7 (Event.all NOTIFY_KEY) .level)] = some [.ret 0 (.add true 7 (Event.all NOTIFY_KEY) .level) (.err .invalidInput)] := by
  decide

end Polling.C40
