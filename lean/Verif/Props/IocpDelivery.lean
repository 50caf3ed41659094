import Verif.Proof.IocpOwn
import Verif.Proof.FlagLemmas

/-! IOCP: what is delivered (C03, C15, C19, C25, C30). -/

namespace Polling.IocpM
open Iocp IocpSpec

/-- The trace of a run from a fresh poller, without the steps at which nothing is to be seen. -/
def exTrace (acts : List Act) : Option (List IObs) := (runActs 3 init acts).map fun r => r.2.filter (· ≠ .tau)

/-- A complete `add` by a thread of its own while no `wait` is in progress. -/
def addActs (t : Tid) (k : Bool) (fd : Fd) (ev : Event EventExtra) (mode : PollMode) : List Act :=
  .call t (.add k fd ev mode) :: (if k then [.go t none] else []) ++ List.replicate 4 (.go t none)

/-- A complete `modify`, likewise. -/
def modActs (t : Tid) (k : Bool) (fd : Fd) (ev : Event EventExtra) (mode : PollMode) : List Act :=
  .call t (.modify k fd ev mode) :: List.replicate 5 (.go t none)

/-- A complete `delete`. -/
def delActs (t : Tid) (k : Bool) (fd : Fd) : List Act := [.call t (.delete k fd), .go t none, .go t none]

/-- A `wait(None)` up to `port.wait`, with `n` updates in the queue. -/
def blockActs (n cap : Nat) : List Act := .waitBegin false cap :: List.replicate (3 + 2 * n) (.wait none)

/-- From `port.wait` to the return, with one completion. -/
def takeActs : List Act := [.get] ++ List.replicate 4 (.wait none) ++ [.decide false, .wait none]

end Polling.IocpM

namespace Polling.C03
open IocpM Iocp IocpSpec

/-- IOCP: every event delivered, for sockets and for waitable handles, belongs to a registration of that source, and carries the
key the registration was made with or changed to last - also when the key changed while the AFD operation was in flight. -/
theorem iocp_right_key (n : Nat) (P) (s : S) (tr : List IObs) (h : Reach n P s tr) :
    EveryDelivery (fun r sock fd ev => ∃ q, r = some q ∧ q.sock = sock ∧ q.fd = fd ∧ ev.key = q.ev.key) tr := by
  intro later sock fd p ev earlier he
  obtain ⟨s0, a, s1, hr, _, hs⟩ := reach_split h later _ earlier he
  obtain ⟨q, h1, h2, h3, h4, h5⟩ := delivered hr hs
  refine ⟨q, h1, h2, h3, ?_⟩
  cases sock with
  | true => exact (h4 rfl).2.1
  | false => rw [h5 rfl]; exact interestOf_key q

/-- And `modify` and `delete` only ever act on registrations of the source they are called for. -/
theorem iocp_changes_own (n : Nat) (P) (s : S) (tr later earlier : List IObs) (h : Reach n P s tr) (o : IObs) (he : tr = later ++ o :: earlier) :
    (∀ t k fd p ev mode, o = .changed t k fd p ev mode → ∃ q, reg earlier p = some q ∧ q.sock = k ∧ q.fd = fd) ∧
    (∀ t k fd p r, o = .deleted t k fd p r → ∃ q, reg earlier p = some q ∧ q.sock = k ∧ q.fd = fd) := by
  obtain ⟨s0, a, s1, hr, _, hs⟩ := reach_split h later _ earlier he
  exact change_own hr hs

/-- What `wait` returns is what it found, in order and unchanged (events with the reserved key are not shown, see C40). -/
theorem iocp_returns_found (n : Nat) (P) (s : S) (tr : List IObs) (m : Nat) (evs : List (Event EventExtra))
    (h : Reach n P s (.waitOk m evs :: tr)) : evs = (found tr).filter (fun ev => ev.key != NOTIFY_KEY) ∧ m = evs.length := by
  obtain ⟨s0, a, s1, hr, _, hs⟩ := reach_split h [] _ tr rfl
  exact waitOk_found hr hs

/-- A thread blocks in `wait`; another changes only the key: no new AFD operation is started, and the event has the new key. -/
example : exTrace (addActs 0 true 7 (Event.onlyReadable 5) .oneshot ++ blockActs 1 4 ++
      [.call 1 (.modify true 7 (Event.onlyReadable 0xFFFFFFFFFFFFFFFE#64) .oneshot), .go 1 none, .go 1 none, .go 1 none,
       .complete 1 (.ok 1 RECEIVE)] ++ takeActs) =
    some [.waitOk 1 [⟨0xFFFFFFFFFFFFFFFE#64, true, false, ⟨RECEIVE⟩⟩], .queued 1,
      .deliver true 7 1 ⟨0xFFFFFFFFFFFFFFFE#64, true, false, ⟨RECEIVE⟩⟩,
      .ret 1 (.modify true 7 (Event.onlyReadable 0xFFFFFFFFFFFFFFFE#64) .oneshot) .ok,
      .changed 1 true 7 1 (Event.onlyReadable 0xFFFFFFFFFFFFFFFE#64) .oneshot,
      .begin 1 (.modify true 7 (Event.onlyReadable 0xFFFFFFFFFFFFFFFE#64) .oneshot),
      .polled 1 (RECEIVE ||| ACCEPT ||| DISCONNECT ||| RECEIVE_EXPEDITED ||| ABORT ||| CONNECT_FAIL), .popped 1, .waitBegin,
      .ret 0 (.add true 7 (Event.onlyReadable 5) .oneshot) .ok, .queued 1,
      .inserted 0 true 7 1 (Event.onlyReadable 5) .oneshot, .begin 0 (.add true 7 (Event.onlyReadable 5) .oneshot)] := by
  decide +kernel

end Polling.C03

namespace Polling.C15
open IocpM Iocp IocpSpec

/-- IOCP sockets: in one-shot mode, no event is delivered if one was delivered since the registration was made or modified last. -/
theorem iocp_oneshot (n : Nat) (P) (s : S) (tr : List IObs) (h : Reach n P s tr) :
    EveryDelivery (fun r sock _ _ => sock = true → ∃ q, r = some q ∧ ¬(q.mode = .oneshot ∧ q.fired = true)) tr := by
  intro later sock fd p ev earlier he hk
  subst hk
  obtain ⟨s0, a, s1, hr, _, hs⟩ := reach_split h later _ earlier he
  obtain ⟨q, h1, h2, h3, h4, h5⟩ := delivered hr hs
  refine ⟨q, h1, ?_⟩
  rintro ⟨hm, hf⟩
  obtain ⟨_, _, h6, h7, h8⟩ := h4 rfl
  have hi : interestOf q = Event.none q.ev.key := by simp [interestOf, hm, hf]
  rw [hi] at h6 h7 h8
  have hr : ev.readable = false := by
    cases hx : ev.readable with
    | false => rfl
    | true => exact absurd (h6 hx) (by simp [Event.none, Event.new])
  have hw : ev.writable = false := by
    cases hx : ev.writable with
    | false => rfl
    | true => exact absurd (h7 hx) (by simp [Event.none, Event.new])
  rw [hr, hw] at h8
  have : intersects ev.extra.flags (Event.none q.ev.key : Event EventExtra).extra.flags = false := by
    show (ev.extra.flags &&& 0#32 != 0#32) = false
    simp
  rw [this] at h8
  cases h8

/-- One-shot waitable handles: after the event, until the registration is modified, only the empty event is delivered; the code does
deliver it (`C32.waitable_spurious_event`). -/
theorem iocp_waitable_oneshot_partial (n : Nat) (P) (s : S) (tr : List IObs) (h : Reach n P s tr) :
    EveryDelivery (fun r sock _ ev => sock = false →
      ∃ q, r = some q ∧ (q.mode = .oneshot → q.fired = true → ev = Event.none q.ev.key) ∧ (q.fired = false → ev = q.ev)) tr := by
  intro later sock fd p ev earlier he hk
  subst hk
  obtain ⟨s0, a, s1, hr, _, hs⟩ := reach_split h later _ earlier he
  obtain ⟨q, h1, h2, h3, h4, h5⟩ := delivered hr hs
  refine ⟨q, h1, ?_, ?_⟩
  · intro hm hf; rw [h5 rfl]; simp [interestOf, hm, hf]
  · intro hf; rw [h5 rfl]; simp [interestOf, hf]

/-- One event in one-shot mode; the socket stays readable, and nothing more comes; after `modify` there is one again. -/
example : ((exTrace (addActs 0 true 7 (Event.onlyReadable 5) .oneshot ++ blockActs 1 4 ++ [.complete 1 (.ok 1 RECEIVE)] ++ takeActs ++
      modActs 0 true 7 (Event.onlyReadable 6) .oneshot ++ blockActs 2 4 ++ [.complete 1 (.ok 1 RECEIVE)] ++ takeActs)).map
      fun tr => tr.filter fun o => match o with | .deliver .. | .changed .. | .polled .. => true | _ => false) =
    some [.deliver true 7 1 ⟨6, true, false, ⟨RECEIVE⟩⟩, .polled 1 0x19b#32, .changed 0 true 7 1 (Event.onlyReadable 6) .oneshot,
      .deliver true 7 1 ⟨5, true, false, ⟨RECEIVE⟩⟩, .polled 1 0x19b#32] ∧
   ((exTrace (addActs 0 true 7 (Event.onlyReadable 5) .oneshot ++ blockActs 1 4 ++ [.complete 1 (.ok 1 RECEIVE)] ++ takeActs ++
      blockActs 1 4)).map fun tr => tr.head?) = some (some (.polled 1 0#32)) := by
  decide +kernel

end Polling.C15

namespace Polling.C19
open IocpM Iocp IocpSpec

/-- IOCP sockets: a registration whose `delete` returned - in whatever state its AFD operation was, and even if cancelling it
failed - delivers nothing. -/
theorem iocp_nothing_after_delete (n : Nat) (P) (s : S) (tr : List IObs) (h : Reach n P s tr) :
    EveryDelivery (fun r sock _ _ => sock = true → ∃ q, r = some q ∧ q.ended = false) tr := by
  intro later sock fd p ev earlier he hk
  subst hk
  obtain ⟨s0, a, s1, hr, _, hs⟩ := reach_split h later _ earlier he
  obtain ⟨q, h1, h2, h3, h4, h5⟩ := delivered hr hs
  exact ⟨q, h1, (h4 rfl).1⟩

/-- IOCP: an event of a source is only delivered while the source is registered, or while a `delete` call that took the
registration out of the table is still in progress (for waitable handles: or was ever made, see C32). -/
theorem iocp_only_registered (n : Nat) (P) (s : S) (tr later earlier : List IObs) (h : Reach n P s tr) (sock : Bool) (fd : Fd) (p : PId)
    (ev : Event EventExtra) (he : tr = later ++ .deliver sock fd p ev :: earlier) :
    registered earlier sock fd = some p ∨
      (∃ t, .removed t sock fd p ∈ earlier) ∧ (sock = true → ∃ q, reg earlier p = some q ∧ q.ended = false) := by
  obtain ⟨s0, a, s1, hr, _, hs⟩ := reach_split h later _ earlier he
  obtain ⟨q, h1, h2, h3, h4, h5⟩ := delivered hr hs
  have := reach_listed hr p q h1
  rw [h2, h3] at this
  rcases this with h | h
  · exact .inl h
  · exact .inr ⟨h, fun hk => ⟨q, h1, (h4 hk).1⟩⟩

/-- Still the property is violated when two threads delete the same source: thread 1 is between taking the source out of the table
and cancelling the operation; the `delete` of thread 2 finds no source and returns `Ok`; and an event of the source is then
delivered by a `wait`, although a `delete` has returned and the source was not added again. -/
theorem iocp_delete_returns_early :
    ∃ s, Reach 3 Any s
      [.deliver true 7 1 ⟨5, true, false, ⟨RECEIVE⟩⟩, .tau, .tau, .tau, .ret 2 (.delete true 7) .ok, .begin 2 (.delete true 7),
       .removed 1 true 7 1, .begin 1 (.delete true 7), .tau, .polled 1 0x19b#32, .popped 1, .tau, .tau, .waitBegin,
       .ret 0 (.add true 7 (Event.onlyReadable 5) .level) .ok, .queued 1, .tau,
       .inserted 0 true 7 1 (Event.onlyReadable 5) .level, .tau, .begin 0 (.add true 7 (Event.onlyReadable 5) .level)] := by
  have hr : ((runActs 3 init (addActs 0 true 7 (Event.onlyReadable 5) .level ++ blockActs 1 4 ++
      [.call 1 (.delete true 7), .go 1 none, .call 2 (.delete true 7), .go 2 none, .complete 1 (.ok 1 RECEIVE), .get, .wait none, .wait none])).map
      Prod.snd) = some
      [.deliver true 7 1 ⟨5, true, false, ⟨RECEIVE⟩⟩, .tau, .tau, .tau, .ret 2 (.delete true 7) .ok, .begin 2 (.delete true 7),
       .removed 1 true 7 1, .begin 1 (.delete true 7), .tau, .polled 1 0x19b#32, .popped 1, .tau, .tau, .waitBegin,
       .ret 0 (.add true 7 (Event.onlyReadable 5) .level) .ok, .queued 1, .tau,
       .inserted 0 true 7 1 (Event.onlyReadable 5) .level, .tau, .begin 0 (.add true 7 (Event.onlyReadable 5) .level)] := by decide +kernel
  rw [Option.map_eq_some_iff] at hr
  obtain ⟨⟨s, o⟩, hr, rfl⟩ := hr
  exact ⟨s, by have := run_reach (P := Any) .init (fun _ _ _ => trivial) hr; rwa [List.append_nil] at this⟩

/-- The completion is already queued when the source is deleted: nothing is delivered. -/
example : exTrace (addActs 0 true 7 (Event.onlyReadable 5) .level ++ blockActs 1 4 ++ [.complete 1 (.ok 1 RECEIVE)] ++ delActs 1 true 7 ++
      [.get, .wait none, .wait none, .decide false]) =
    some [.deleted 1 true 7 1 .ok, .removed 1 true 7 1, .begin 1 (.delete true 7), .polled 1 0x19b#32, .popped 1, .waitBegin,
      .ret 0 (.add true 7 (Event.onlyReadable 5) .level) .ok, .queued 1, .inserted 0 true 7 1 (Event.onlyReadable 5) .level,
      .begin 0 (.add true 7 (Event.onlyReadable 5) .level)] := by
  decide +kernel

end Polling.C19

namespace Polling.C25
open IocpM Iocp IocpSpec

/-- Every socket event is within the registered interest: it is readable (writable) only if that was asked for, and if it is neither, it
reports a condition that is among the extra conditions asked for. -/
theorem iocp_within_interest (n : Nat) (P) (s : S) (tr : List IObs) (h : Reach n P s tr) :
    EveryDelivery (fun r sock _ ev => sock = true → ∃ q, r = some q ∧ (ev.readable = true → q.ev.readable = true) ∧
      (ev.writable = true → q.ev.writable = true) ∧
      (ev.readable = false → ev.writable = false → ∃ i, i < 32 ∧ ev.extra.flags.getLsbD i = true ∧ q.ev.extra.flags.getLsbD i = true)) tr := by
  intro later sock fd p ev earlier he hk
  subst hk
  obtain ⟨s0, a, s1, hr, _, hs⟩ := reach_split h later _ earlier he
  obtain ⟨q, h1, h2, h3, h4, h5⟩ := delivered hr hs
  obtain ⟨_, _, h6, h7, h8⟩ := h4 rfl
  obtain ⟨q', h1', hno⟩ := C15.iocp_oneshot n P s tr h later true fd p ev earlier he rfl
  rw [h1] at h1'; cases h1'
  have hi : interestOf q = q.ev := by
    unfold interestOf
    rw [if_neg]
    rintro ⟨a, b⟩; exact hno ⟨b, a⟩
  rw [hi] at h6 h7 h8
  refine ⟨q, h1, h6, h7, ?_⟩
  intro hr hw
  rw [hr, hw, Bool.false_or, Bool.false_or] at h8
  exact (intersects_iff _ _).1 h8

/-- The extra conditions a user can ask for with the methods of `Event`. -/
def apiExtra (ev : Event EventExtra) : Prop := ∀ i, i < 32 → ev.extra.flags.getLsbD i = true → i = 1 ∨ i = 4

/-- So for an interest built with the methods of `Event`, an event that is neither readable nor writable reports an interrupt or a
priority event, and that was asked for.  Missing: interests taken over from received events, see `iocp_unasked_event`. -/
theorem iocp_neither_partial (n : Nat) (P) (s : S) (tr : List IObs) (h : Reach n P s tr) :
    EveryDelivery (fun r sock _ ev => sock = true → ∃ q, r = some q ∧ (apiExtra q.ev → ev.readable = false → ev.writable = false →
      (ev.isInterrupt = true ∧ q.ev.isInterrupt = true) ∨ (ev.isPriority = true ∧ q.ev.isPriority = true))) tr := by
  intro later sock fd p ev earlier he hk
  obtain ⟨q, h1, _, _, h2⟩ := iocp_within_interest n P s tr h later sock fd p ev earlier he hk
  refine ⟨q, h1, ?_⟩
  intro ha hr hw
  obtain ⟨i, hi, h3, h4⟩ := h2 hr hw
  have h5 : ∀ j, j < 32 → ABORT.getLsbD j = decide (j = 4) := by decide
  have h6 : ∀ j, j < 32 → RECEIVE_EXPEDITED.getLsbD j = decide (j = 1) := by decide
  rcases ha i hi h4 with rfl | rfl
  · exact .inr ⟨(intersects_iff _ _).2 ⟨1, by decide, h3, by rw [h6 1 (by decide)]; rfl⟩, (intersects_iff _ _).2 ⟨1, by decide, h4, by rw [h6 1 (by decide)]; rfl⟩⟩
  · exact .inl ⟨(intersects_iff _ _).2 ⟨4, by decide, h3, by rw [h5 4 (by decide)]; rfl⟩, (intersects_iff _ _).2 ⟨4, by decide, h4, by rw [h5 4 (by decide)]; rfl⟩⟩

/-- The event a user received from a writable socket, with `writable` set to false: it asks for nothing the API speaks of. -/
def fedBack : Event EventExtra := { (⟨5, false, true, ⟨SEND⟩⟩ : Event EventExtra) with writable := false }

/-- The remaining case: a received event, changed only in its field `writable`, is passed to `modify`.  Its extra flags are taken for an
interest, and an event is delivered that is neither readable nor writable, nor an interrupt, priority or error event. -/
theorem iocp_unasked_event :
    ∃ s tr, Reach 3 Any s (.deliver true 7 1 fedBack :: tr) ∧ (∃ q, reg tr 1 = some q ∧ q.ev = fedBack) ∧
      fedBack.readable = false ∧ fedBack.writable = false ∧ fedBack.isInterrupt = false ∧ fedBack.isPriority = false ∧
      fedBack.isErr = some false ∧ .waitOk 1 [⟨5, false, true, ⟨SEND⟩⟩] ∈ tr := by
  have hr : ((runActs 3 init (addActs 0 true 7 (Event.onlyWritable 5) .level ++ blockActs 1 4 ++ [.complete 1 (.ok 1 SEND)] ++ takeActs ++
      modActs 0 true 7 fedBack .level ++ blockActs 2 4 ++ [.complete 1 (.ok 1 SEND), .get, .wait none, .wait none])).map
      fun r => (decide (r.2.head? = some (.deliver true 7 1 fedBack)), (reg r.2.tail 1).map Reg.ev, decide (.waitOk 1 [⟨5, false, true, ⟨SEND⟩⟩] ∈ r.2.tail)))
      = some (true, some fedBack, true) := by decide +kernel
  rw [Option.map_eq_some_iff] at hr
  obtain ⟨⟨s, o⟩, hr, he⟩ := hr
  simp only [Prod.mk.injEq, decide_eq_true_eq] at he
  obtain ⟨h1, h2, h3⟩ := he
  cases o with
  | nil => cases h1
  | cons x tr =>
    simp only [List.head?_cons, Option.some.injEq] at h1
    subst h1
    rw [Option.map_eq_some_iff] at h2
    have := run_reach (P := Any) .init (fun _ _ _ => trivial) hr
    rw [List.append_nil] at this
    exact ⟨s, tr, this, h2, by decide, by decide, by decide, by decide, by decide, h3⟩

/-- An AFD operation that fails is reported as readable and writable, but only as far as asked for; one that was asked for urgent data
only delivers that. -/
example : ((exTrace (addActs 0 true 7 (Event.onlyWritable 5) .level ++ blockActs 1 4 ++ [.complete 1 .error] ++ takeActs)).bind List.head?) =
    some (.waitOk 1 [⟨5, false, true, ⟨0⟩⟩]) ∧
   ((exTrace (addActs 0 true 7 (Event.none 5).withPriority .level ++ blockActs 1 4 ++ [.complete 1 (.ok 1 RECEIVE_EXPEDITED)] ++ takeActs)).bind List.head?) =
    some (.waitOk 1 [⟨5, false, false, ⟨RECEIVE_EXPEDITED⟩⟩]) ∧
   apiExtra (Event.none 5).withPriority := by
  refine ⟨by decide +kernel, by decide +kernel, ?_⟩
  unfold apiExtra
  decide

end Polling.C25

namespace Polling.C30
open IocpM Iocp IocpSpec

/-- In every reachable state, whatever the interests and whatever AFD reports among the conditions asked for: `wait` is not in the
branch for locally closed sockets, where it would wait for a mutex it holds or panic; and no AFD operation in flight was asked for
that condition. -/
theorem iocp_never_stuck (n : Nat) (P) (s : S) (tr : List IObs) (h : Reach n P s tr) :
    s.phase ≠ .stuck ∧ ∀ p k m b, s.c.pk p = .socket k → k.op = .inFlight m b → m.getLsbD 5 = false := by
  refine ⟨reach_not_stuck h, ?_⟩
  intro p k m b hp hop
  have := reach_clean h p
  rw [hp] at this
  exact noClose_bit.1 (this.2.1 m b hop)

/-- Whatever event is found by `wait` does not have the condition. -/
theorem found_clean {n P s tr} (h : Reach n P s tr) : ∀ ev ∈ found tr, buildable ev = true := by
  induction h with
  | init => intro ev h; cases h
  | @step s tr a s' o hr _ hs ih =>
    have hc := reach_clean hr
    intro ev hev
    have hrec : ∀ p e, o = .received p e → buildable e = true := by
      intro p e he
      subst he
      obtain ⟨w, batch, hph, hf⟩ := received_inv hs
      have := hc p
      rcases feed_cases s.c p with ⟨s, r, e1, e2, e3, e4⟩ | ⟨s, r, e1, e2, e3, e4, e5⟩ | ⟨s, r, e1, e2, e3, e4, e5⟩ | ⟨w, e1, e5⟩ | ⟨e, e1, e2⟩ |
        ⟨e1, e2⟩ | ⟨e1, e2⟩
      · rw [e4] at hf; cases hf
      · rw [e5] at hf; cases hf
      · rw [e5] at hf; cases hf
      · rw [e5] at hf; cases hf
      · rw [e2] at hf; cases hf; rw [e1] at this; exact this
      · rw [e2] at hf; cases hf
      · rw [e2] at hf; cases hf
    have hdel : ∀ k fd p e, o = .deliver k fd p e → buildable e = true := by
      intro k fd p e he
      subst he
      exact deliver_clean hr hs
    cases o with
    | deliver k fd p e =>
      simp only [found, List.mem_append, List.mem_singleton] at hev
      rcases hev with hev | rfl
      · exact ih ev hev
      · exact hdel _ _ _ _ rfl
    | received p e =>
      simp only [found, List.mem_append, List.mem_singleton] at hev
      rcases hev with hev | rfl
      · exact ih ev hev
      · exact hrec _ _ rfl
    | waitBegin => cases hev
    | waitAgain => cases hev
    | _ => exact ih ev hev

/-- Events received from `wait` can be passed back: they never have the condition among their extra flags.  So the events a user can
build are those the model lets registration calls have (`buildable`), and all calls of `Event`'s methods keep this. -/
theorem iocp_received_is_buildable (n : Nat) (P) (s : S) (tr : List IObs) (m : Nat) (evs : List (Event EventExtra))
    (h : Reach n P s (.waitOk m evs :: tr)) : ∀ ev ∈ evs, ev.extra.flags.getLsbD 5 = false := by
  obtain ⟨s0, a, s1, hr, _, hs⟩ := reach_split h [] _ tr rfl
  obtain ⟨rfl, _⟩ := waitOk_found hr hs
  intro ev hev
  rw [List.mem_filter] at hev
  have := found_clean hr ev hev.1
  exact noClose_bit.1 (by simpa [buildable, NoClose] using this)

theorem iocp_api_is_buildable (e : Event EventExtra) (b : Bool) (key : Key) (r w : Bool) :
    buildable (Event.new key r w : Event EventExtra) = true ∧ buildable e.clearExtra = true ∧
    (buildable e = true → buildable (e.setInterrupt b) = true ∧ buildable (e.setPriority b) = true) := by
  have hz : buildable (⟨key, r, w, ⟨0#32⟩⟩ : Event EventExtra) = true := by
    show ((0#32 : BitVec 32) &&& LOCAL_CLOSE == 0#32) = true; decide
  refine ⟨hz, ?_, ?_⟩
  · show ((0#32 : BitVec 32) &&& LOCAL_CLOSE == 0#32) = true; decide
  · intro he
    have he' : e.extra.flags.getLsbD 5 = false := noClose_bit.1 (by simpa [buildable, NoClose] using he)
    have key : ∀ x : Mask, x.getLsbD 5 = false → (x &&& LOCAL_CLOSE == 0#32) = true := by
      intro x hx
      have := noClose_bit.2 hx
      unfold NoClose at this
      rw [this]; rfl
    constructor
    · refine key (setBit e.extra.flags ABORT b) ?_
      unfold setBit
      cases b <;> simp [ABORT] <;> simpa using he'
    · refine key (setBit e.extra.flags RECEIVE_EXPEDITED b) ?_
      unfold setBit
      cases b <;> simp [RECEIVE_EXPEDITED] <;> simpa using he'

/-- An aborted connection: everything that was asked for is reported, and the poller goes on. -/
example : ((exTrace (addActs 0 true 7 (Event.all 5) .level ++ blockActs 1 4 ++ [.complete 1 (.ok 1 (RECEIVE ||| SEND ||| DISCONNECT ||| ABORT))] ++ takeActs ++
      blockActs 1 4)).map fun tr => tr.take 4) =
    some [.polled 1 0x19f#32, .popped 1, .waitBegin, .waitOk 1 [⟨5, true, true, ⟨RECEIVE ||| SEND ||| DISCONNECT ||| ABORT⟩⟩]] := by
  decide +kernel

end Polling.C30
