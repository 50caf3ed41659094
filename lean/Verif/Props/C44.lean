import Verif.Props.IocpSync

/-! C44: on Windows, conditions are translated faithfully. -/

namespace Polling.C44
open IocpM Iocp IocpSpec

theorem intersects_any (m m' : Mask) : intersects m m' = anyOf (m &&& m') (List.range 32) := by
  rw [Bool.eq_iff_iff, intersects_iff]
  simp only [anyOf, List.any_eq_true, List.mem_range, BitVec.getLsbD_and, Bool.and_eq_true]

theorem filterEvent_snd (s : Sock) (ev : Event EventExtra) : (filterEvent s ev).2 =
    if (ev.readable && s.interest.readable || ev.writable && s.interest.writable || intersects ev.extra.flags s.interest.extra.flags) = true
    then some ⟨ev.key, ev.readable && s.interest.readable, ev.writable && s.interest.writable, ev.extra⟩ else none := by
  unfold filterEvent; dsimp only; split <;> rfl

theorem readable_bits (m : Mask) : (afdMaskToEvent m).1 = anyOf m [0, 1, 3, 7, 4, 8] := by
  have h1 := intersects_mask m (RECEIVE ||| ACCEPT ||| DISCONNECT ||| RECEIVE_EXPEDITED) (fun i => i = 0 ∨ i = 1 ∨ i = 3 ∨ i = 7) (by decide)
  have h2 := intersects_mask m (ABORT ||| CONNECT_FAIL) (fun i => i = 4 ∨ i = 8) (by decide)
  rw [Bool.eq_iff_iff]
  unfold afdMaskToEvent
  dsimp only
  simp only [anyOf, List.any_cons, List.any_nil, Bool.or_eq_true, Bool.or_false]
  split
  · rename_i h
    obtain ⟨i, rfl | rfl, h⟩ := h2.1 h <;> simp [h]
  · rename_i h
    have h4 : m.getLsbD 4 = false := by
      cases hb : m.getLsbD 4 with
      | false => rfl
      | true => exact absurd (h2.2 ⟨4, .inl rfl, hb⟩) h
    have h8 : m.getLsbD 8 = false := by
      cases hb : m.getLsbD 8 with
      | false => rfl
      | true => exact absurd (h2.2 ⟨8, .inr rfl, hb⟩) h
    rw [h1, h4, h8]
    constructor
    · rintro ⟨i, rfl | rfl | rfl | rfl, h⟩ <;> simp [h]
    · rintro (h | h | h | h | h | h)
      · exact ⟨0, by simp, h⟩
      · exact ⟨1, by simp, h⟩
      · exact ⟨3, by simp, h⟩
      · exact ⟨7, by simp, h⟩
      · cases h
      · cases h

theorem writable_bits (m : Mask) : (afdMaskToEvent m).2 = anyOf m [2, 4, 8] := by
  have h1 := intersects_mask m SEND (fun i => i = 2) (by decide)
  have h2 := intersects_mask m (ABORT ||| CONNECT_FAIL) (fun i => i = 4 ∨ i = 8) (by decide)
  rw [Bool.eq_iff_iff]
  unfold afdMaskToEvent
  dsimp only
  simp only [anyOf, List.any_cons, List.any_nil, Bool.or_eq_true, Bool.or_false]
  split
  · rename_i h
    obtain ⟨i, rfl | rfl, h⟩ := h2.1 h <;> simp [h]
  · rename_i h
    have h4 : m.getLsbD 4 = false := by
      cases hb : m.getLsbD 4 with
      | false => rfl
      | true => exact absurd (h2.2 ⟨4, .inl rfl, hb⟩) h
    have h8 : m.getLsbD 8 = false := by
      cases hb : m.getLsbD 8 with
      | false => rfl
      | true => exact absurd (h2.2 ⟨8, .inr rfl, hb⟩) h
    rw [h1, h4, h8]
    simp

/-- What a step of `wait` that processes a completion of a registered socket shows. -/
theorem feed_obs {n P s tr fd p q w batch k r} (h : Reach n P s tr) (hreg : registered tr true fd = some p) (hq : reg tr p = some q)
    (hph : s.phase = .feed w (p :: batch)) (hpk : s.c.pk p = .socket k) (hop : k.op = .done r) :
    ∃ s', step n s (.wait none) = some (s', match (filterEvent k.taken (rawEvent k.interest.key r)).2 with | some ev => .deliver true fd p ev | none => .tau) ∧
      k.interest = interestOf q := by
  have hti := reach_ti h
  rw [hti.tab] at hreg
  have hid := hti.ids _ _ _ hreg
  have hgone := (reach_gone h).2 p
  have hns := feed_not_stuck h p
  have hrg := hti.regs p
  rw [hpk] at hgone hrg hid
  obtain ⟨q', hq1, _, _, _, _, _, hi, _⟩ := hrg
  rw [hq] at hq1; cases hq1
  rcases feed_cases s.c p with ⟨k, r, e1, e2, e3, e4⟩ | ⟨k, r, e1, e2, e3, e4, e5⟩ | ⟨k', r', e1, e2, e3, e4, e5⟩ | ⟨w, e1, e5⟩ | ⟨e, e1, e2⟩ |
      ⟨e1, e2⟩ | ⟨e1, e2⟩
  · rw [hpk] at e1; cases e1; exact absurd hreg (hgone e3 _ _)
  · rw [e5] at hns; exact absurd rfl hns
  · rw [hpk] at e1; cases e1
    rw [hop] at e2; cases e2
    simp only [step, goWait, hph, e5]
    cases hid
    exact ⟨_, rfl, hi⟩
  · rw [hpk] at e1; cases e1
  · rw [hpk] at e1; cases e1
  · rw [hpk] at e1; cases e1
  · rcases e1 with ⟨k', e1, e1'⟩ | e1
    · rw [hpk] at e1; cases e1; exact absurd hop (e1' r)
    · rw [hpk] at e1; cases e1

theorem interestOf_cases (q : Reg) : (armed q = true ∧ interestOf q = q.ev) ∨ (armed q = false ∧ interestOf q = Event.none q.ev.key) := by
  unfold armed interestOf
  by_cases ha : q.fired = true ∧ q.mode = .oneshot
  · right; simp [ha]
  · left
    refine ⟨?_, by simp [ha]⟩
    cases hf : q.fired <;> simp
    intro hm; exact ha ⟨hf, hm⟩

/-- When `wait` processes a successful completion of a registered socket, it delivers exactly the event that the specification
`shown` gives for the conditions the OS reported and for the registration as the history shows it - or none, if it gives
none. -/
theorem iocp_event_exact (n : Nat) (P) (s : S) (tr : List IObs) (h : Reach n P s tr) (fd : Fd) (p : PId) (q : Reg)
    (hreg : registered tr true fd = some p) (hq : reg tr p = some q) (w : W) (batch : List PId) (hph : s.phase = .feed w (p :: batch))
    (k : Sock) (hpk : s.c.pk p = .socket k) (c : Nat) (m : Mask) (hop : k.op = .done (.ok c m)) (hc : c ≥ 1) :
    ∃ s', step n s (.wait none) = some (s', match shown q m with | some ev => .deliver true fd p ev | none => .tau) := by
  obtain ⟨s', hs, hi⟩ := feed_obs h hreg hq hph hpk hop
  refine ⟨s', ?_⟩
  rw [hs]
  have : (filterEvent k.taken (rawEvent k.interest.key (.ok c m))).2 = shown q m := by
    have hk : k.interest.key = q.ev.key := by rw [hi]; exact interestOf_key q
    have ht : k.taken.interest = interestOf q := hi
    have hraw : rawEvent k.interest.key (.ok c m) = ⟨q.ev.key, anyOf m [0, 1, 3, 7, 4, 8], anyOf m [2, 4, 8], ⟨m⟩⟩ := by
      unfold rawEvent
      dsimp only
      rw [if_pos hc, readable_bits, writable_bits, hk]
    rw [hraw, filterEvent_snd]
    unfold shown
    simp only [ht, intersects_any]
    rcases interestOf_cases q with ⟨ha, hi⟩ | ⟨ha, hi⟩
    · simp only [hi, ha, Bool.true_and, Bool.and_comm]
    · have h0 : (Event.none q.ev.key : Event EventExtra).extra.flags = 0#32 := rfl
      have h1 : (Event.none q.ev.key : Event EventExtra).readable = false := rfl
      have h2 : (Event.none q.ev.key : Event EventExtra).writable = false := rfl
      simp only [hi, ha, h0, h1, h2]
      simp [anyOf]
  rw [this]

/-- The same for an operation that failed. -/
theorem iocp_error_event (n : Nat) (P) (s : S) (tr : List IObs) (h : Reach n P s tr) (fd : Fd) (p : PId) (q : Reg)
    (hreg : registered tr true fd = some p) (hq : reg tr p = some q) (w : W) (batch : List PId) (hph : s.phase = .feed w (p :: batch))
    (k : Sock) (hpk : s.c.pk p = .socket k) (hop : k.op = .done .error) :
    ∃ s', step n s (.wait none) = some (s', match shownError q with | some ev => .deliver true fd p ev | none => .tau) := by
  obtain ⟨s', hs, hi⟩ := feed_obs h hreg hq hph hpk hop
  refine ⟨s', ?_⟩
  rw [hs]
  have : (filterEvent k.taken (rawEvent k.interest.key .error)).2 = shownError q := by
    have hk : k.interest.key = q.ev.key := by rw [hi]; exact interestOf_key q
    have ht : k.taken.interest = interestOf q := hi
    have hraw : rawEvent k.interest.key .error = ⟨q.ev.key, true, true, ⟨0#32⟩⟩ := by rw [hk]; rfl
    rw [hraw, filterEvent_snd]
    unfold shownError
    simp only [ht, intersects]
    rcases interestOf_cases q with ⟨ha, hi⟩ | ⟨ha, hi⟩
    · simp [hi, ha]
    · have h1 : (Event.none q.ev.key : Event EventExtra).readable = false := rfl
      have h2 : (Event.none q.ev.key : Event EventExtra).writable = false := rfl
      simp [hi, ha, h1, h2]
  rw [this]

/-- A cancelled operation, and one that reports nothing, deliver no event. -/
theorem iocp_no_event (n : Nat) (P) (s : S) (tr : List IObs) (h : Reach n P s tr) (fd : Fd) (p : PId) (q : Reg)
    (hreg : registered tr true fd = some p) (hq : reg tr p = some q) (w : W) (batch : List PId) (hph : s.phase = .feed w (p :: batch))
    (k : Sock) (hpk : s.c.pk p = .socket k) (hop : k.op = .done .cancelled ∨ ∃ m, k.op = .done (.ok 0 m)) :
    ∃ s', step n s (.wait none) = some (s', .tau) := by
  have key : ∀ r, k.op = .done r → rawEvent k.interest.key r = Event.none k.interest.key → ∃ s', step n s (.wait none) = some (s', .tau) := by
    intro r hop hraw
    obtain ⟨s', hs, hi⟩ := feed_obs h hreg hq hph hpk hop
    refine ⟨s', ?_⟩
    rw [hs, hraw]
    have : (filterEvent k.taken (Event.none k.interest.key)).2 = none := by
      unfold filterEvent
      have h0 : ∀ x, (Event.none x : Event EventExtra).extra.flags = 0#32 := fun _ => rfl
      have h1 : ∀ x, (Event.none x : Event EventExtra).readable = false := fun _ => rfl
      have h2 : ∀ x, (Event.none x : Event EventExtra).writable = false := fun _ => rfl
      simp [h0, h1, h2, intersects]
    rw [this]
  rcases hop with hop | ⟨m, hop⟩
  · exact key _ hop rfl
  · exact key _ hop rfl

/-- Asked for everything: a socket of which the peer shut down is readable, an aborted one both. -/
example : shown ⟨true, 7, Event.all 5, .level, true, false⟩ DISCONNECT = some ⟨5, true, false, ⟨DISCONNECT⟩⟩ ∧
    shown ⟨true, 7, Event.all 5, .level, true, false⟩ ABORT = some ⟨5, true, true, ⟨ABORT⟩⟩ ∧
    shown ⟨true, 7, Event.onlyWritable 5, .oneshot, false, false⟩ RECEIVE = none ∧
    shown ⟨true, 7, Event.all 5, .oneshot, true, false⟩ ABORT = none := by decide

/-- Such a state, and what follows. -/
example : exTrace (addActs 0 true 7 (Event.onlyWritable 5) .level ++ blockActs 1 4 ++ [.complete 1 (.ok 1 (SEND ||| ABORT))] ++ takeActs) =
    some [.waitOk 1 [⟨5, false, true, ⟨SEND ||| ABORT⟩⟩], .queued 1, .deliver true 7 1 ⟨5, false, true, ⟨SEND ||| ABORT⟩⟩,
      .polled 1 (SEND ||| ABORT ||| CONNECT_FAIL), .popped 1, .waitBegin,
      .ret 0 (.add true 7 (Event.onlyWritable 5) .level) .ok, .queued 1,
      .inserted 0 true 7 1 (Event.onlyWritable 5) .level, .begin 0 (.add true 7 (Event.onlyWritable 5) .level)] := by decide +kernel

end Polling.C44

namespace Polling.C16
open IocpM Iocp IocpSpec

/-- IOCP, level mode: while a thread waits at the port, a registered socket for which no call is in progress keeps being
watched - also after any number of its events were delivered: the OS has an operation in flight that asks for every
condition of the interest, so that it completes as soon as the condition holds (first case), or an operation that is being
cancelled and then polled again (second case, `C26.iocp_completion_repolls`), or the wait returns at once because a
completion of the socket is in the port (third case).  Missing: failures of the OS (`C26.iocp_refused_is_forgotten`) and the
race `C28.iocp_update_stranded`. -/
theorem iocp_level_partial (n : Nat) (s : S) (tr : List IObs) (h : Reach n (fun s a => Accepts s a ∧ NoRace s a) s tr) (w : W)
    (hph : s.phase = .port w) (fd : Fd) (p : PId) (q : Reg) (hreg : registered tr true fd = some p) (hq : reg tr p = some q)
    (hmode : q.mode = .level) (hcall : ∀ t, ¬ (s.pc t).holds p) (m : Mask)
    (hready : ∀ i, m.getLsbD i = true → q.ev.readable = true ∧ i ∈ [0, 1, 3, 7] ∨ q.ev.writable = true ∧ i = 2 ∨ i = 4 ∨ i = 8) :
    (∃ s', step n s (.complete p (.ok 1 m)) = some (s', .tau) ∧ ∃ s'', step n s' .get = some (s'', .tau)) ∨
    (∃ s', step n s (.complete p .cancelled) = some (s', .tau) ∧ ∃ s'', step n s' .get = some (s'', .tau)) ∨
    (p ∈ s.c.port ∧ ∃ s', step n s .get = some (s', .tau)) := by
  obtain ⟨q', k, hq', hk, hop⟩ := C28.iocp_takes_effect_partial n s tr h w hph fd p hreg hcall
  rw [hq] at hq'; cases hq'
  have hget : ∀ s' : S, s'.phase = .port w → s'.c.port ≠ [] → ∃ s'', step n s' .get = some (s'', .tau) := by
    intro s' h1 h2
    simp only [step, h1]
    rw [if_pos (.inl h2)]
    exact ⟨_, rfl⟩
  rcases hop with ⟨m', hop, ha⟩ | ⟨m', hop⟩ | ⟨⟨r, hop⟩, hin⟩
  · left
    have hpos : possible m' false (.ok 1 m) = true := by
      simp only [possible, beq_iff_eq]
      ext i hi
      simp only [BitVec.getElem_and, BitVec.getElem_not, BitVec.getElem_zero]
      have := ha i hi
      rw [BitVec.getLsbD_eq_getElem hi] at this
      rw [this]
      cases hm : m[i] with
      | false => rfl
      | true =>
        have := hready i (by rw [BitVec.getLsbD_eq_getElem hi, hm])
        have harm : armed q = true := by simp [armed, hmode]
        simp only [watches, harm, Bool.true_and]
        rcases this with ⟨h1, h2⟩ | ⟨h1, rfl⟩ | rfl | rfl
        · simp only [List.mem_cons, List.not_mem_nil, or_false] at h2
          rcases h2 with rfl | rfl | rfl | rfl <;> simp [h1]
        · simp [h1]
        · simp
        · simp
    have hst : ∃ s', step n s (.complete p (.ok 1 m)) = some (s', .tau) ∧ s'.phase = s.phase ∧ s'.c.port = s.c.port ++ [p] := by
      simp only [step, hk, hop]
      rw [if_pos hpos]
      exact ⟨_, rfl, rfl, rfl⟩
    obtain ⟨s', hst, h1, h2⟩ := hst
    exact ⟨s', hst, hget s' (h1.trans hph) (by rw [h2]; simp)⟩
  · right; left
    have hst : ∃ s', step n s (.complete p .cancelled) = some (s', .tau) ∧ s'.phase = s.phase ∧ s'.c.port = s.c.port ++ [p] := by
      simp only [step, hk, hop]
      exact ⟨_, rfl, rfl, rfl⟩
    obtain ⟨s', hst, h1, h2⟩ := hst
    exact ⟨s', hst, hget s' (h1.trans hph) (by rw [h2]; simp)⟩
  · right; right
    rw [hph] at hin
    have hin : p ∈ s.c.port := by simpa [Phase.batch] using hin
    exact ⟨hin, hget s hph (by intro h0; rw [h0] at hin; cases hin)⟩

/-- Three waits find the same ready socket three times. -/
example : (exTrace (addActs 0 true 7 (Event.onlyReadable 5) .level ++ (List.replicate 3 (blockActs 1 4 ++ [.complete 1 (.ok 1 RECEIVE)] ++ takeActs)).flatten)).map
      (fun tr => tr.filter fun | .waitOk _ _ => true | _ => false) =
    some (List.replicate 3 (.waitOk 1 [⟨5, true, false, ⟨RECEIVE⟩⟩])) := by decide +kernel

end Polling.C16
