import Verif.Proof.IocpFull

/-! IOCP: packets of the user and completions (C31, C45, C38). -/

namespace Polling.C31
open IocpM Iocp IocpSpec

/-- In every run, with any failures: the packets found by `wait` calls are packets that were posted, each found at most once
per post, unchanged, in the order they were posted. -/
theorem iocp_posted_at_most_once (n : Nat) (P) (s : S) (tr : List IObs) (h : Reach n P s tr) : (receipts tr).Sublist (posts tr) :=
  (List.sublist_append_left _ _).trans (reach_posts h)

/-- In every run in which the OS refuses no operation that the waiting thread has to start while it processes completions
(it only starts one then if the queue of updates is full): the packets found are exactly the first ones posted, in order; the
others are still on their way, in order; and they are all found once nothing is left in the port and no batch is being
processed.  Missing for the full property: the refusal, see `iocp_packets_lost`. -/
theorem iocp_posted_once_partial (n : Nat) (P) (hP : ∀ s a, P s a → NoFail s a) (s : S) (tr : List IObs) (h : Reach n P s tr) :
    posts tr = receipts tr ++ onTheWay s ∧ (s.c.port = [] → s.phase = .idle → receipts tr = posts tr) := by
  have := reach_posts_eq hP h
  refine ⟨this, fun h1 h2 => ?_⟩
  rw [this]
  simp [onTheWay, entries, h1, h2, Phase.batch]

/-- Under the same condition, everything found - packets of the user and events of sources - is returned by the `wait` that
found it, in order, except events with the reserved key (see `C40.iocp_reserved_key_accepted`). -/
theorem iocp_all_returned_partial (n : Nat) (P) (hP : ∀ s a, P s a → NoFail s a) (s : S) (tr : List IObs) (h : Reach n P s tr)
    (hph : s.phase = .idle) : everReturned tr = (everFound tr).filter (fun ev => ev.key != NOTIFY_KEY) := by
  have := reach_returned hP h
  rw [this, hph]
  simp [Phase.collected]

/-- The exception: 1024 updates are queued when a `wait` processes the completion of a socket; the waiting thread has to make
room, and the OS refuses the operation it starts.  `wait` fails; the packet in the same batch is never found, and the event
of the socket is not returned, although nothing is in progress and the port is empty. -/
theorem iocp_packets_lost : ∃ s tr, Reach 3 Any s tr ∧ s.phase = .idle ∧ s.c.port = [] ∧ (∀ t, s.pc t = .out) ∧
    posts tr = [(2, Event.onlyReadable 9)] ∧ receipts tr = [] ∧
    everFound tr = [⟨5, true, false, ⟨RECEIVE⟩⟩] ∧ everReturned tr = [] := by
  obtain ⟨s, tr, h1, h2, h3, _, h5, h6, h7, _, _, ⟨_, _, h8, h9⟩, _⟩ := drop_run
  exact ⟨s, tr, h1, h2, h3, h5, h6, h7, h8, h9⟩

/-- Two packets, one posted twice, and a notification, taken in batches of two. -/
example : exTrace ([.newPacket (Event.onlyReadable 8), .newPacket (Event.none 9), .post 1 none, .post 2 none, .post 1 none, .notifyCas 0, .notifyPost 0 none] ++
    blockActs 0 2 ++ [.get] ++ List.replicate 3 (.wait none) ++ [.decide false, .wait none] ++
    blockActs 0 2 ++ [.get] ++ List.replicate 3 (.wait none) ++ [.decide false, .wait none]) =
    some [.waitOk 1 [Event.onlyReadable 8], .received 1 (Event.onlyReadable 8), .waitBegin,
      .waitOk 2 [Event.onlyReadable 8, Event.none 9], .received 2 (Event.none 9), .received 1 (Event.onlyReadable 8), .waitBegin,
      .notified 0, .notifyBegin 0, .posted 1 (Event.onlyReadable 8), .posted 2 (Event.none 9), .posted 1 (Event.onlyReadable 8)] := by decide +kernel

end Polling.C31

namespace Polling.C45
open IocpM Iocp IocpSpec

/-- A `wait` takes the oldest completions, as many as its buffer has room for, and leaves the others in the port in their
order; and it does so whenever there is one. -/
theorem iocp_takes_oldest (n : Nat) (s : S) (w : W) (hph : s.phase = .port w) :
    (s.c.port ≠ [] → ∃ s', step n s .get = some (s', .tau)) ∧
    ∀ s' o, step n s .get = some (s', o) → s'.phase = .unpoll w (s.c.port.take w.cap) ∧ s'.c.port = s.c.port.drop w.cap ∧ entries s' = s.c.port := by
  simp only [step, hph]
  constructor
  · intro h; rw [if_pos (.inl h)]; exact ⟨_, rfl⟩
  · intro s' o h
    split at h <;> cases h
    exact ⟨rfl, rfl, by simp [entries, Phase.batch]⟩

/-- Whatever the capacities: a completion that is in the port (or in the batch being processed) is not lost and not overtaken.
In every run from there - in which no failing update ends the processing of a batch, see `C31.iocp_packets_lost` - it is
processed, or it is still there and nothing is before it that was not before it already. -/
theorem iocp_keeps_place_partial (n : Nat) (s s' : S) (tr : List IObs) (h : Reach n Any s tr) (l : List (S × Act)) (hl : Steps n s l s') (p : PId)
    (l1 l2 : List PId) (he : entries s = l1 ++ p :: l2) : Processed l p ∨ ∃ i l2', entries s' = l1.drop i ++ p :: l2' :=
  steps_place h (fun _ _ => trivial) hl p l1 l2 he

/-- Three packets with a buffer for one: each `wait` returns the next one, also if more are posted. -/
example : exTrace ([.newPacket (Event.none 1), .newPacket (Event.none 2), .newPacket (Event.none 3), .post 1 none, .post 2 none] ++
    blockActs 0 1 ++ [.get, .post 3 none, .wait none, .wait none, .decide false, .wait none] ++ blockActs 0 1 ++ [.get, .wait none, .wait none, .decide false, .wait none]) =
    some [.waitOk 1 [Event.none 2], .received 2 (Event.none 2), .waitBegin, .waitOk 1 [Event.none 1], .received 1 (Event.none 1), .posted 3 (Event.none 3), .waitBegin,
      .posted 2 (Event.none 2), .posted 1 (Event.none 1)] := by decide +kernel

end Polling.C45

namespace Polling.C38
open IocpM Iocp IocpSpec

/-- A `wait` with a buffer for one: two packets pending, one found. -/
example : exTrace ([.newPacket (Event.none 1), .post 1 none, .post 1 none] ++ blockActs 0 1 ++ [.get, .wait none, .wait none, .decide false, .wait none]) =
    some [.waitOk 1 [Event.none 1], .received 1 (Event.none 1), .waitBegin, .posted 1 (Event.none 1), .posted 1 (Event.none 1)] := by decide +kernel

/-- IOCP: a `wait` never finds more events than its buffer has room for; what is still to be processed is included. -/
theorem iocp_within_capacity (n : Nat) (P) (s : S) (tr : List IObs) (h : Reach n P s tr) :
    (∀ w b, s.phase = .unpoll w b → w.evs = [] ∧ b.length ≤ w.cap) ∧
    (∀ w b, s.phase = .feed w b → w.evs.length + b.length ≤ w.cap) ∧
    (∀ w b u ev, s.phase = .feedUpd w b u ev → w.evs.length + b.length + 1 ≤ w.cap) := by
  have hadd : ∀ (w : W) (ev : Option (Event EventExtra)), (addEvent w ev).evs.length ≤ w.evs.length + 1 ∧ (addEvent w ev).cap = w.cap := by
    intro w ev; cases ev <;> simp [addEvent]
  induction h with
  | init => exact ⟨nofun, nofun, nofun⟩
  | @step s tr a s' o hr hp hs ih =>
    have hcnt := (reach_count hr).1
    obtain ⟨i1, i2, i3⟩ := ih
    have keep : s'.phase = s.phase → (∀ w b, s'.phase = .unpoll w b → w.evs = [] ∧ b.length ≤ w.cap) ∧
        (∀ w b, s'.phase = .feed w b → w.evs.length + b.length ≤ w.cap) ∧
        (∀ w b u ev, s'.phase = .feedUpd w b u ev → w.evs.length + b.length + 1 ≤ w.cap) := fun h => by rw [h]; exact ⟨i1, i2, i3⟩
    cases a with
    | wait fault =>
      simp only [step] at hs
      unfold goWait at hs
      split at hs
      case h_9 w p b hph =>
        have := i2 _ _ hph
        rw [List.length_cons] at this
        split at hs <;> cases hs
        · exact ⟨nofun, fun _ _ h => by cases h; omega, nofun⟩
        · exact ⟨nofun, fun _ _ h => by cases h; dsimp only; omega, nofun⟩
        · next ev _ _ => exact ⟨nofun, fun _ _ h => by cases h; have := hadd w (some ev); omega, nofun⟩
        · exact ⟨nofun, nofun, nofun⟩
        · exact ⟨nofun, nofun, fun _ _ _ _ h => by cases h; omega⟩
      case h_10 w b u ev hph =>
        have := i3 _ _ _ _ hph
        split at hs
        · cases hs; exact ⟨nofun, nofun, fun _ _ _ _ h => by cases h; omega⟩
        · cases hs; exact ⟨nofun, fun _ _ h => by cases h; have := hadd w ev; omega, nofun⟩
        · cases hs; exact ⟨nofun, nofun, nofun⟩
      case h_5 w b hph =>
        cases hs
        have := i1 _ _ hph
        exact ⟨nofun, fun _ _ h => by cases h; rw [this.1]; simpa using this.2, nofun⟩
      case h_6 w e hph =>
        unfold waitFail at hs
        split at hs <;> cases hs <;> exact ⟨nofun, nofun, nofun⟩
      case h_7 w e hph =>
        unfold waitFail at hs
        split at hs <;> cases hs <;> exact ⟨nofun, nofun, nofun⟩
      all_goals
        repeat' split at hs
        all_goals cases hs
        all_goals exact ⟨nofun, nofun, nofun⟩
    | get =>
      simp only [step] at hs
      split at hs
      · next w hph =>
        split at hs <;> cases hs
        refine ⟨fun _ _ h => ?_, nofun, nofun⟩
        cases h
        refine ⟨?_, by rw [List.length_take]; omega⟩
        rw [hph] at hcnt; exact hcnt
      · cases hs
    | _ =>
      first
      | (simp only [step] at hs; repeat' split at hs
         all_goals cases hs
         all_goals first | exact keep rfl | exact ⟨nofun, nofun, nofun⟩)
      | (simp only [step] at hs; split at hs
         · cases hs
         · exact keep (noFind_goCall hs).2)

end Polling.C38
