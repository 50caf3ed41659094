import Verif.Props.C70
import Verif.Proof.IocpWtb
import Verif.Proof.IocpTimeout
import Verif.Proof.IocpClose

/-! C72, the IOCP poller: a `wait` that the completion port has answered comes back, unless other threads keep its queue of updates full. -/

namespace Polling.C72
open Spec IocpM IocpSpec
open C70 (updLeft outLeft fullCost ustep_left)

/-- The steps of the thread that waits, from the return of `GetQueuedCompletionStatusEx` on. -/
def ioOwn : Act → Bool
  | .wait _ | .decide _ => true
  | _ => false

/-- A completion that always ends a `wait`: of `notify`, of a packet that was posted, or of a handle. -/
def firm : Pkt → Bool
  | .wakeup | .custom _ | .waitable _ => true
  | _ => false

/-- The `wait` is over: it returned events or an error; or it was interrupted and starts again. -/
def ioReturned (o : IObs) : Prop := (∃ n evs, o = .waitOk n evs) ∨ (∃ e, o = .waitErr e) ∨ o = .waitAgain

/-- The thread that waits finds the queue of updates full. -/
def waitFull (s : S) : Act → Bool
  | .wait _ => match s.phase with
    | .feedUpd _ _ (.push _) _ => decide (s.c.pending.length ≥ CAPACITY)
    | _ => false
  | _ => false

/-- How often it does. -/
def waitFulls (n : Nat) : S → List Act → Nat
  | _, [] => 0
  | s, a :: as => (if waitFull s a then 1 else 0) + match step n s a with | some r => waitFulls n r.1 as | none => 0

/-- There is a reason to return. -/
def reason (c : Core) (w : W) (batch : List PId) : Prop := w.notified = true ∨ w.newEvents > 0 ∨ ∃ p ∈ batch, firm (c.pk p) = true

/-- Where a `wait` is, from the return of the system call on. -/
def ioInside (c : Core) : Phase → Prop
  | .unpoll w batch | .feed w batch => reason c w batch
  | .feedUpd w batch _ ev => reason c w batch ∨ ev.isSome = true
  | .drain _ _ _ | .fin _ => True
  | _ => False

/-- How many steps it has left, at most. -/
def ioLeft : Phase → Nat
  | .unpoll _ batch => 3 * batch.length + 3
  | .feed _ batch => 3 * batch.length + 2
  | .feedUpd _ batch u _ => updLeft u + 3 * batch.length + 1
  | .drain _ _ batch => batch.length + 1
  | .fin _ => 1
  | _ => 0

theorem firm_kind {x y} (h : firm x = true) (hk : kind y = kind x) : firm y = true := by
  cases x <;> first | (cases h; done) | (cases y <;> first | rfl | (cases hk; done))

/-- Such a completion remains one. -/
theorem firm_stays {n P s tr a s' o p} (h : IocpM.Reach n P s tr) (hs : step n s a = some (s', o)) (hf : firm (s.c.pk p) = true) : firm (s'.c.pk p) = true := by
  have he := reach_ei h
  have hk : ∀ b, kind (s.c.pk p) ≠ .sock b := by
    intro b hb; cases hx : s.c.pk p <;> rw [hx] at hf hb <;> first | (cases hf; done) | (cases hb; done)
  cases reach_ent h hs with
  | same _ _ h2 _ _ =>
    refine firm_kind hf (h2 p ?_)
    by_cases hq : p < s.c.next
    · exact hq
    · rw [he.low p (by omega)] at hf; cases hf
  | post _ _ _ _ h4 _ => rw [h4]; exact hf
  | @complete q _ _ h2 _ h4 _ => rw [h4 p (by rintro rfl; exact hk _ h2)]; exact hf
  | @feed q _ _ _ h3 => exact firm_kind hf (by rw [h3, if_neg]; rintro ⟨rfl, b, hb⟩; exact hk _ hb)
  | drop _ _ _ _ h3 => exact firm_kind hf (by rw [h3, if_neg]; rintro ⟨_, b, hb⟩; exact hk _ hb)

theorem reason_stays {n P s tr a s' o w batch} (h : IocpM.Reach n P s tr) (hs : step n s a = some (s', o)) (hr : reason s.c w batch) : reason s'.c w batch := by
  rcases hr with h1 | h1 | ⟨p, h1, h2⟩
  · exact .inl h1
  · exact .inr (.inl h1)
  · exact .inr (.inr ⟨p, h1, firm_stays h hs h2⟩)

theorem inside_stays {n P s tr a s' o} (h : IocpM.Reach n P s tr) (hs : step n s a = some (s', o)) (hp : s'.phase = s.phase) (hi : ioInside s.c s.phase) :
    ioInside s'.c s'.phase := by
  rw [hp]
  cases hq : s.phase <;> rw [hq] at hi <;> first | exact hi.elim | trivial | exact reason_stays h hs hi | skip
  rcases hi with hi | hi
  · exact .inl (reason_stays h hs hi)
  · exact .inr hi

theorem io_other {n s a s' o} (hs : step n s a = some (s', o)) (ho : ioOwn a = false) (hi : ioInside s.c s.phase) : s'.phase = s.phase := by
  cases a
  case wait => cases ho
  case decide => cases ho
  case go t fault =>
    simp only [step] at hs
    split at hs
    · cases hs
    · exact (noFind_goCall hs).2
  case waitBegin =>
    simp only [step] at hs
    split at hs
    · next hp => rw [hp] at hi; exact hi.elim
    · cases hs
  case get =>
    simp only [step] at hs
    split at hs
    · next hp => rw [hp] at hi; exact hi.elim
    · cases hs
  case getFail =>
    simp only [step] at hs
    split at hs
    · next hp => rw [hp] at hi; exact hi.elim
    · cases hs
  all_goals
    simp only [step] at hs
    repeat' split at hs
    all_goals cases hs
    all_goals rfl

theorem addEvent_reason {c w batch ev} (h : reason c w batch ∨ ev.isSome = true) : reason c (addEvent w ev) batch := by
  cases ev with
  | none => exact h.resolve_right (by simp)
  | some ev => exact .inr (.inl (by simp [addEvent]))

theorem waitFail_returned (s : S) (w e) : ioReturned (waitFail s w e).2 := by
  unfold waitFail
  split
  · exact .inr (.inr rfl)
  · exact .inr (.inl ⟨_, rfl⟩)

/-- Processing a completion: it was a reason to return, and then it left one. -/
theorem reason_cons {c w p batch} (h : reason c w (p :: batch)) : reason c w batch ∨ firm (c.pk p) = true := by
  rcases h with h1 | h1 | ⟨q, h1, h2⟩
  · exact .inl (.inl h1)
  · exact .inl (.inr (.inl h1))
  · rcases List.mem_cons.1 h1 with rfl | h1
    · exact .inr h2
    · exact .inl (.inr (.inr ⟨q, h1, h2⟩))

theorem io_own {n s tr a s' o} (h : IocpM.Reach n Any s tr) (hs : step n s a = some (s', o)) (ho : ioOwn a = true) (hi : ioInside s.c s.phase) :
    ioReturned o ∨ (ioInside s'.c s'.phase ∧ ioLeft s'.phase + 1 ≤ ioLeft s.phase + (if waitFull s a then 2 * CAPACITY + 3 else 0)) := by
  have keep : ∀ {w batch}, reason s.c w batch → reason s'.c w batch := fun hr => reason_stays h hs hr
  cases a with
  | decide expired =>
    simp only [step] at hs
    split at hs
    · next w hp =>
      rw [hp] at hi
      have hc : w.notified = true ∨ w.newEvents > 0 := by
        rcases hi with h1 | h1 | ⟨p, h1, _⟩
        · exact .inl h1
        · exact .inr h1
        · cases h1
      rw [if_pos (by rcases hc with h1 | h1 <;> simp [h1])] at hs
      cases hs
      right; rw [hp]; exact ⟨trivial, by simp [ioLeft, waitFull]⟩
    · cases hs
  | wait fault =>
    simp only [step] at hs
    unfold goWait at hs
    cases hp : s.phase with
    | unpoll w batch =>
      rw [hp] at hi hs
      cases hs
      exact .inr ⟨keep hi, by simp only [ioLeft]; omega⟩
    | drain w e batch =>
      rw [hp] at hs
      cases batch with
      | nil =>
        left
        have e' := congrArg Prod.snd (Option.some.inj hs)
        rw [← show _ = o from e']
        exact waitFail_returned _ _ _
      | cons p batch => cases hs; exact .inr ⟨trivial, by simp only [ioLeft, List.length_cons]; omega⟩
    | fin evs =>
      rw [hp] at hs
      cases hs
      exact .inl (.inl ⟨_, _, rfl⟩)
    | feed w batch =>
      rw [hp] at hs hi
      cases batch with
      | nil => cases hs
      | cons p batch =>
        have hns := feed_not_stuck h p
        have hi := reason_cons hi
        have hfd : firm (s.c.pk p) = true → (∃ c, feed s.c p = (.notified, c)) ∨ (∃ ev c, feed s.c p = (.custom ev, c)) ∨
            (∃ k fd ev c, feed s.c p = (.update k fd (some ev), c)) := by
          intro hf
          unfold feed
          cases hx : s.c.pk p <;> rw [hx] at hf <;> first | (cases hf; done) | skip
          · exact .inr (.inr ⟨_, _, _, _, rfl⟩)
          · exact .inr (.inl ⟨_, _, rfl⟩)
          · exact .inl ⟨_, rfl⟩
        dsimp only at hs
        rcases hf : feed s.c p with ⟨r, c⟩
        rw [hf] at hs hfd hns
        right
        cases r with
        | noEvent =>
          cases hs
          refine ⟨keep (hi.resolve_right fun hx => ?_), by simp only [ioLeft, List.length_cons]; omega⟩
          rcases hfd hx with ⟨_, e⟩ | ⟨_, _, e⟩ | ⟨_, _, _, _, e⟩ <;> cases e
        | notified => cases hs; exact ⟨.inl rfl, by simp only [ioLeft, List.length_cons]; omega⟩
        | custom ev => cases hs; exact ⟨.inr (.inl (by simp [addEvent])), by simp only [ioLeft, List.length_cons]; omega⟩
        | localClose => exact absurd rfl hns
        | update k fd ev =>
          cases hs
          refine ⟨?_, by simp only [ioLeft, updLeft, List.length_cons]; omega⟩
          rcases hi with hi | hx
          · exact .inl (keep hi)
          · right
            rcases hfd hx with ⟨_, e⟩ | ⟨_, _, e⟩ | ⟨_, _, _, _, e⟩ <;> cases e
            rfl
    | feedUpd w batch u ev =>
      rw [hp] at hs hi
      have hl := ustep_left (fault := coherent fault u) (c := s.c) (u := u)
      have hf : fullCost s.c u = (if waitFull s (.wait fault) then 2 * CAPACITY + 3 else 0) := by
        simp only [waitFull, hp]
        cases u <;> simp [fullCost]
      rw [← hf]
      dsimp only at hs
      have hi' : reason s'.c w batch ∨ ev.isSome = true := hi.imp_left keep
      rcases hu : ustep (coherent fault u) s.c u with ⟨c, out, o'⟩
      rw [hu] at hs hl
      right
      cases out with
      | more u' => cases hs; exact ⟨hi', by simp only [ioLeft, outLeft] at hl ⊢; omega⟩
      | done r =>
        cases r with
        | ok => cases hs; exact ⟨addEvent_reason hi', by simp only [ioLeft, outLeft] at hl ⊢; omega⟩
        | err e => cases hs; exact ⟨trivial, by simp only [ioLeft, outLeft] at hl ⊢; omega⟩
    | _ => rw [hp] at hi; exact hi.elim
  | _ => cases ho

theorem io_enabled {n s} (hi : ioInside s.c s.phase) :
    ∃ a, (a = .wait none ∨ a = .decide false) ∧ (step n s a).isSome = true := by
  cases hp : s.phase with
  | feed w batch =>
    cases batch with
    | nil => exact ⟨_, .inr rfl, by simp only [step, hp]; split <;> rfl⟩
    | cons p batch =>
      refine ⟨_, .inl rfl, ?_⟩
      simp only [step, goWait, hp]
      split <;> rfl
  | unpoll w batch => exact ⟨_, .inl rfl, by simp only [step, goWait, hp]; rfl⟩
  | drain w e batch => exact ⟨_, .inl rfl, by cases batch <;> simp only [step, goWait, hp] <;> rfl⟩
  | fin evs => exact ⟨_, .inl rfl, by simp only [step, goWait, hp]; rfl⟩
  | feedUpd w batch u ev =>
    refine ⟨_, .inl rfl, ?_⟩
    simp only [step, goWait, hp]
    split <;> rfl
  | _ => rw [hp] at hi; exact hi.elim

theorem ioLeft_pos {c p} (h : ioInside c p) : ioLeft p > 0 := by
  cases p <;> first | exact h.elim | simp [ioLeft]

/-- The IOCP poller, in every reachable state: once the completion port holds, among the entries that one call takes, a notification, a posted packet
or a handle that was signalled, the system call can return; and along every continuation, the `wait` is over, or it can make its next step, which does
not fail; and it has made less than three steps for every entry, and three, and 2051 more for every time that it found the queue of updates full.
Missing: a bound for how often that happens, if other threads fill the queue again each time; and entries of sockets alone, which may turn out to carry
no event: then the `wait` goes back to the port. -/
theorem iocp_wait_comes_back_partial (n : Nat) (s : S) (tr : List IObs) (h : IocpM.Reach n Any s tr) (w : W) (hp : s.phase = .port w)
    (hr : ∃ p ∈ s.c.port.take w.cap, firm (s.c.pk p) = true) (acts : List Act) (s' : S) (l : List (Act × IObs)) :
    (step n s .get).isSome = true ∧
    (runLog (step n) s (.get :: acts) [] = some (s', l) →
      (∃ x ∈ l, ioReturned x.2) ∨
      ((acts.filter ioOwn).length < 3 * (s.c.port.take w.cap).length + 3 + (2 * CAPACITY + 3) * waitFulls n s (.get :: acts) ∧
        ∃ a, (a = .wait none ∨ a = .decide false) ∧ (step n s' a).isSome = true)) := by
  have run : ∀ (acts : List Act) {s s' : S} {tr l l'}, IocpM.Reach n Any s tr → ioInside s.c s.phase → runLog (step n) s acts l = some (s', l') →
      (∃ x ∈ l', ioReturned x.2) ∨ ((∃ tr', IocpM.Reach n Any s' tr') ∧ ioInside s'.c s'.phase ∧
        ioLeft s'.phase + (acts.filter ioOwn).length ≤ ioLeft s.phase + (2 * CAPACITY + 3) * waitFulls n s acts) := by
    intro acts
    induction acts with
    | nil => intro s s' tr l l' hr hi h; cases h; exact .inr ⟨⟨_, hr⟩, hi, by simp⟩
    | cons a acts ih =>
      intro s s' tr l l' hr hi h
      simp only [runLog, Option.bind_eq_some_iff] at h
      obtain ⟨⟨s1, o⟩, ha, h⟩ := h
      have step1 : ioReturned o ∨ (ioInside s1.c s1.phase ∧
          ioLeft s1.phase + (if ioOwn a then 1 else 0) ≤ ioLeft s.phase + (if waitFull s a then 2 * CAPACITY + 3 else 0)) := by
        cases ho : ioOwn a with
        | true => simpa using io_own hr ha ho hi
        | false =>
          have e := io_other ha ho hi
          exact .inr ⟨inside_stays hr ha e hi, by rw [e]; simp⟩
      rcases step1 with hx | ⟨h1, h3⟩
      · exact .inl ⟨_, runLog_mem h _ (List.mem_cons_self ..), hx⟩
      · rcases ih (.step hr trivial ha) h1 h with hx | ⟨h4, h5, h6⟩
        · exact .inl hx
        · refine .inr ⟨h4, h5, ?_⟩
          have e : waitFulls n s (a :: acts) = (if waitFull s a then 1 else 0) + waitFulls n s1 acts := by
            simp only [waitFulls, ha]
          rw [e, Nat.mul_add, List.filter_cons]
          cases ho : ioOwn a <;> cases hf : waitFull s a <;> rw [ho, hf] at h3 <;>
            simp only [if_true, Bool.false_eq_true, if_false, List.length_cons] at h3 ⊢ <;> omega
  have hne : s.c.port ≠ [] := by
    obtain ⟨p, h1, _⟩ := hr
    intro e; rw [e] at h1; simp at h1
  have hg : step n s .get = some ({ s with c := { s.c with port := s.c.port.drop w.cap }, phase := .unpoll w (s.c.port.take w.cap) }, .tau) := by
    simp only [step, hp]; rw [if_pos (.inl hne)]
  refine ⟨by rw [hg]; rfl, ?_⟩
  intro hrun
  have e : waitFulls n s (.get :: acts) = waitFulls n { s with c := { s.c with port := s.c.port.drop w.cap }, phase := .unpoll w (s.c.port.take w.cap) } acts := by
    simp only [waitFulls, hg, waitFull, Bool.false_eq_true, if_false, Nat.zero_add]
  simp only [runLog, hg, Option.bind_some] at hrun
  rw [e]
  rcases run acts (.step h trivial hg) (by exact .inr (.inr hr)) hrun with hx | ⟨_, h5, h6⟩
  · exact .inl hx
  · refine .inr ⟨?_, io_enabled h5⟩
    have := ioLeft_pos h5
    have h7 : ioLeft s'.phase + (acts.filter ioOwn).length ≤ 3 * (s.c.port.take w.cap).length + 3 + (2 * CAPACITY + 3) * waitFulls n _ acts := h6
    generalize (2 * CAPACITY + 3) * waitFulls n _ acts = x at h7 ⊢
    omega

/-- The port holds a notification and a posted packet; a source is added after the system call returned: the `wait` returns the packet with its fifth
step, the limit being nine; nothing is found full. -/
def answered : List Act := [.newPacket (Event.onlyReadable 9), .waitBegin false 4, .wait none, .wait none, .wait none, .notifyCas 0, .notifyPost 0 none,
  .post 1 none]

example : (runLog (step 2) IocpM.init answered []).map (fun r => (r.1.c.port, r.1.c.port.all fun p => firm (r.1.c.pk p))) = some ([0, 1], true) := by
  decide +kernel

example : (runLog (step 2) IocpM.init (answered ++ [.get, .wait none, .call 1 (.add false 7 (Event.onlyReadable 5) .oneshot), .wait none, .go 1 none,
      .wait none, .decide false, .go 1 none, .wait none]) []).bind (fun r => r.2.head?.map Prod.snd) =
    some (.waitOk 1 [Event.onlyReadable 9]) := by decide +kernel

/-! Where the bound is missing: another thread fills the queue again each time. -/

/-- The other thread changes the registration of the handle, without interest. -/
def spin : Call := .modify false 7 (Event.none 5) .oneshot

/-- The state, as far as it matters: the handle is registered as packet 1, the queue of updates holds it `m` times. -/
structure Spins (s : S) (m : Nat) (pc : Pc) (ph : Phase) : Prop where
  pk : s.c.pk 1 = .waitable ⟨7, Event.none 5, .oneshot, .idle, false⟩
  tb : s.c.table false 7 = some 1
  pend : s.c.pending = List.replicate m 1
  pol : s.c.polling = false
  pc : s.pc 0 = pc
  ph : s.phase = ph

/-- Steps in which the `wait` does not return. -/
inductive Go : S → List Act → S → Prop
  | nil {s} : Go s [] s
  | cons {s a s1 o as s'} : step 1 s a = some (s1, o) → ¬ ioReturned o → Go s1 as s' → Go s (a :: as) s'

theorem Go.append {s as s1 bs s'} (h1 : Go s as s1) (h2 : Go s1 bs s') : Go s (as ++ bs) s' := by
  induction h1 with
  | nil => exact h2
  | cons h ho _ ih => exact .cons h ho (ih h2)

theorem Go.run {s as s'} (h : Go s as s') : ∀ l, (∀ x ∈ l, ¬ ioReturned x.2) →
    ∃ l', runLog (step 1) s as l = some (s', l') ∧ ∀ x ∈ l', ¬ ioReturned x.2 := by
  induction h with
  | nil => intro l hl; exact ⟨l, rfl, hl⟩
  | @cons s a s1 o as s' h ho _ ih =>
    intro l hl
    obtain ⟨l', h1, h2⟩ := ih ((a, o) :: l) (by
      intro x hx
      rcases List.mem_cons.1 hx with rfl | hx
      · exact ho
      · exact hl x hx)
    exact ⟨l', by simp only [runLog, h, Option.bind_some]; exact h1, h2⟩

theorem not_ret {o : IObs} (h1 : ∀ n evs, o ≠ .waitOk n evs) (h2 : ∀ e, o ≠ .waitErr e) (h3 : o ≠ .waitAgain) : ¬ ioReturned o := by
  rintro (⟨n, evs, e⟩ | ⟨e, h⟩ | h)
  · exact h1 _ _ e
  · exact h2 _ h
  · exact h3 h

theorem spin_update {s m pc ph} (h : Spins s m pc ph) : update none s.c 1 = (.ok, setPk s.c 1 (.waitable ⟨7, Event.none 5, .oneshot, .idle, false⟩), none) := by
  unfold update; rw [h.pk]; rfl

/-- The other thread puts the packet into the queue once more. -/
theorem go_fill1 {s m ph} (h : Spins s m .out ph) (hm : m < CAPACITY) :
    ∃ s', Go s [.call 0 spin, .go 0 none, .go 0 none, .go 0 none, .go 0 none, .go 0 none] s' ∧ Spins s' (m + 1) .out ph := by
  have t1 : ∃ s1, step 1 s (.call 0 spin) = some (s1, .begin 0 spin) ∧ Spins s1 m (.table spin) ph := by
    refine ⟨{ s with pc := IocpM.upd s.pc 0 (.table spin) }, ?_, h.pk, h.tb, h.pend, h.pol, rfl, h.ph⟩
    simp only [step, h.pc]; rfl
  obtain ⟨s1, e1, h⟩ := t1
  have t2 : ∃ s2, step 1 s1 (.go 0 none) = some (s2, .tau) ∧ Spins s2 m (.set spin 1) ph := by
    refine ⟨{ s1 with pc := IocpM.upd s1.pc 0 (.set spin 1) }, ?_, h.pk, h.tb, h.pend, h.pol, rfl, h.ph⟩
    simp only [step, goCall, h.pc, spin, h.tb]; rfl
  obtain ⟨s2, e2, h⟩ := t2
  have t3 : ∃ s3, step 1 s2 (.go 0 none) = some (s3, .changed 0 false 7 1 (Event.none 5) .oneshot) ∧ Spins s3 m (.upd spin (.load 1)) ph := by
    refine ⟨{ s2 with c := setPk s2.c 1 (.waitable ⟨7, Event.none 5, .oneshot, .idle, false⟩), pc := IocpM.upd s2.pc 0 (.upd spin (.load 1)) }, ?_,
      setPk_self .., h.tb, h.pend, h.pol, rfl, h.ph⟩
    have : setEvents s2.c 1 (Event.none 5) .oneshot = (true, setPk s2.c 1 (.waitable ⟨7, Event.none 5, .oneshot, .idle, false⟩)) := by
      unfold setEvents; rw [h.pk]; rfl
    simp only [step, goCall, h.pc, spin, this]; rfl
  obtain ⟨s3, e3, h⟩ := t3
  have t4 : ∃ s4, step 1 s3 (.go 0 none) = some (s4, .tau) ∧ Spins s4 m (.upd spin (.push 1)) ph := by
    refine ⟨{ s3 with pc := IocpM.upd s3.pc 0 (.upd spin (.push 1)) }, ?_, h.pk, h.tb, h.pend, h.pol, rfl, h.ph⟩
    simp only [step, goCall, h.pc, ustep, h.pol]; rfl
  obtain ⟨s4, e4, h⟩ := t4
  have t5 : ∃ s5, step 1 s4 (.go 0 none) = some (s5, .queued 1) ∧ Spins s5 (m + 1) (.ret spin .ok) ph := by
    refine ⟨{ s4 with c := { s4.c with pending := s4.c.pending ++ [1] }, pc := IocpM.upd s4.pc 0 (.ret spin .ok) }, ?_, h.pk, h.tb, ?_, h.pol,
      rfl, h.ph⟩
    · have : s4.c.pending.length < CAPACITY := by rw [h.pend, List.length_replicate]; exact hm
      simp only [step, goCall, h.pc, ustep, if_pos this]; rfl
    · simp only [h.pend, List.replicate_succ']
  obtain ⟨s5, e5, h⟩ := t5
  have t6 : ∃ s6, step 1 s5 (.go 0 none) = some (s6, .ret 0 spin .ok) ∧ Spins s6 (m + 1) .out ph := by
    refine ⟨{ s5 with pc := IocpM.upd s5.pc 0 .out }, ?_, h.pk, h.tb, h.pend, h.pol, rfl, h.ph⟩
    simp only [step, goCall, h.pc]; rfl
  obtain ⟨s6, e6, h⟩ := t6
  exact ⟨s6, .cons e1 (not_ret nofun nofun nofun) (.cons e2 (not_ret nofun nofun nofun) (.cons e3 (not_ret nofun nofun nofun)
    (.cons e4 (not_ret nofun nofun nofun) (.cons e5 (not_ret nofun nofun nofun) (.cons e6 (not_ret nofun nofun nofun) .nil))))), h⟩

/-- It fills the queue. -/
theorem go_fill {ph} : ∀ (d m : Nat) (s : S), m + d = CAPACITY → Spins s m .out ph → ∃ as s', Go s as s' ∧ Spins s' CAPACITY .out ph := by
  intro d
  induction d with
  | zero => intro m s h hs; have h : m = CAPACITY := by omega
            exact ⟨[], s, .nil, h ▸ hs⟩
  | succ d ih =>
    intro m s h hs
    obtain ⟨s1, h1, h2⟩ := go_fill1 hs (by omega)
    obtain ⟨as, s', h3, h4⟩ := ih (m + 1) s1 (by omega) h2
    exact ⟨_, s', h1.append h3, h4⟩

/-- The thread that waits empties the queue, and pushes again. -/
theorem go_drain {w ev} : ∀ (n : Nat) (s : S), Spins s n .out (.feedUpd w [] (.pop 1 n) ev) →
    ∃ as s', Go s as s' ∧ Spins s' 0 .out (.feedUpd w [] (.push 1) ev) := by
  intro n
  induction n with
  | zero =>
    intro s h
    have t1 : ∃ s1, step 1 s (.wait none) = some (s1, .tau) ∧ Spins s1 0 .out (.feedUpd w [] (.load 1) ev) := by
      refine ⟨{ s with phase := .feedUpd w [] (.load 1) ev }, ?_, h.pk, h.tb, h.pend, h.pol, h.pc, rfl⟩
      simp only [step, goWait, h.ph, ustep]
    obtain ⟨s1, e1, h⟩ := t1
    have t2 : ∃ s2, step 1 s1 (.wait none) = some (s2, .tau) ∧ Spins s2 0 .out (.feedUpd w [] (.push 1) ev) := by
      refine ⟨{ s1 with phase := .feedUpd w [] (.push 1) ev }, ?_, h.pk, h.tb, h.pend, h.pol, h.pc, rfl⟩
      simp only [step, goWait, h.ph, ustep, h.pol, coherent]; rfl
    obtain ⟨s2, e2, h⟩ := t2
    exact ⟨_, s2, .cons e1 (not_ret nofun nofun nofun) (.cons e2 (not_ret nofun nofun nofun) .nil), h⟩
  | succ n ih =>
    intro s h
    have t1 : ∃ s1, step 1 s (.wait none) = some (s1, .popped 1) ∧ Spins s1 n .out (.feedUpd w [] (.drain 1 n 1) ev) := by
      refine ⟨{ s with c := { s.c with pending := List.replicate n 1 }, phase := .feedUpd w [] (.drain 1 n 1) ev }, ?_, h.pk, h.tb, rfl, h.pol, h.pc, rfl⟩
      have hp : s.c.pending = 1 :: List.replicate n 1 := h.pend
      simp only [step, goWait, h.ph, ustep, hp]
    obtain ⟨s1, e1, h⟩ := t1
    have t2 : ∃ s2, step 1 s1 (.wait none) = some (s2, .tau) ∧ Spins s2 n .out (.feedUpd w [] (.pop 1 n) ev) := by
      refine ⟨{ s1 with c := setPk s1.c 1 (.waitable ⟨7, Event.none 5, .oneshot, .idle, false⟩), phase := .feedUpd w [] (.pop 1 n) ev }, ?_,
        setPk_self .., h.tb, h.pend, h.pol, h.pc, rfl⟩
      simp only [step, goWait, h.ph, ustep, coherent, spin_update h]; rfl
    obtain ⟨s2, e2, h⟩ := t2
    obtain ⟨as, s', h1, h2⟩ := ih s2 h
    exact ⟨_, s', .cons e1 (not_ret nofun nofun nofun) (.cons e2 (not_ret nofun nofun nofun) h1), h2⟩

/-- One round. -/
theorem go_round {w ev s} (h : Spins s CAPACITY .out (.feedUpd w [] (.push 1) ev)) :
    ∃ as s', (as.filter ioOwn).length > 0 ∧ Go s as s' ∧ Spins s' CAPACITY .out (.feedUpd w [] (.push 1) ev) := by
  have t1 : ∃ s1, step 1 s (.wait none) = some (s1, .tau) ∧ Spins s1 CAPACITY .out (.feedUpd w [] (.pop 1 CAPACITY) ev) := by
    refine ⟨{ s with phase := .feedUpd w [] (.pop 1 CAPACITY) ev }, ?_, h.pk, h.tb, h.pend, h.pol, h.pc, rfl⟩
    have : ¬ s.c.pending.length < CAPACITY := by rw [h.pend, List.length_replicate]; exact Nat.lt_irrefl _
    simp only [step, goWait, h.ph, ustep, if_neg this]
  obtain ⟨s1, e1, h⟩ := t1
  obtain ⟨as, s2, h1, h2⟩ := go_drain CAPACITY s1 h
  obtain ⟨bs, s3, h3, h4⟩ := go_fill CAPACITY 0 s2 (Nat.zero_add _) h2
  refine ⟨.wait none :: (as ++ bs), s3, ?_, .cons e1 (not_ret nofun nofun nofun) (h1.append h3), h4⟩
  exact Nat.succ_pos _

theorem go_rounds {w ev} : ∀ (k : Nat) (s : S), Spins s CAPACITY .out (.feedUpd w [] (.push 1) ev) →
    ∃ as s', (as.filter ioOwn).length ≥ k ∧ Go s as s' := by
  intro k
  induction k with
  | zero => intro s _; exact ⟨[], s, Nat.zero_le _, .nil⟩
  | succ k ih =>
    intro s h
    obtain ⟨as, s1, h1, h2, h3⟩ := go_round h
    obtain ⟨bs, s2, h4, h5⟩ := ih s1 h3
    refine ⟨_, s2, ?_, h2.append h5⟩
    rw [List.filter_append, List.length_append]; omega

/-- A handle is added, and signalled while a thread waits: its completion is in the port. -/
def signalled : List Act := [.call 0 (.add false 7 (Event.onlyReadable 5) .oneshot), .go 0 none, .go 0 none, .go 0 none, .go 0 none,
  .waitBegin false 4, .wait none, .wait none, .wait none, .wait none, .wait none, .fire 1, .callback 1, .callbackPost 1 none]

/-- Where the bound is missing, it is false: a handle is signalled, and the `wait` was handed its completion; after every number of steps it may still be
going round in iocp/mod.rs:507-524, because another thread changes registrations again and again. -/
theorem iocp_wait_may_starve : ∃ (s : S) (tr : List IObs) (w : W), IocpM.Reach 1 Any s tr ∧ s.phase = .port w ∧
    (∃ p ∈ s.c.port.take w.cap, firm (s.c.pk p) = true) ∧ ∀ k : Nat, ∃ acts s' l,
    runLog (step 1) s (.get :: acts) [] = some (s', l) ∧ (acts.filter ioOwn).length ≥ k ∧ ∀ x ∈ l, ¬ ioReturned x.2 := by
  have reach : ∀ (as : List Act) {s s' : S} {tr l}, IocpM.Reach 1 Any s tr → runActs 1 s as = some (s', l) → ∃ tr', IocpM.Reach 1 Any s' tr' := by
    intro as
    induction as with
    | nil => intro s s' tr l hr h; cases h; exact ⟨_, hr⟩
    | cons a as ih =>
      intro s s' tr l hr h
      simp only [runActs, Option.bind_eq_some_iff, Option.map_eq_some_iff] at h
      obtain ⟨⟨s1, o⟩, ha, ⟨s2, l2⟩, h2, h3⟩ := h
      cases h3
      exact ih (.step hr trivial ha) h2
  have e : (runActs 1 IocpM.init signalled).isSome = true := by decide +kernel
  obtain ⟨⟨s, l0⟩, hrun⟩ := Option.isSome_iff_exists.1 e
  have get : ∀ {α : Type} (f : S → α) {v : α}, (runActs 1 IocpM.init signalled).map (fun r => f r.1) = some v → f s = v := by
    intro α f v h
    rw [hrun] at h
    exact Option.some.inj h
  have hph : s.phase = .port ⟨false, 4, false, 0, []⟩ := get (fun s => s.phase) (by decide +kernel)
  have hpo : s.c.port = [1] := get (fun s => s.c.port) (by decide +kernel)
  have hpk : s.c.pk 1 = .waitable ⟨7, Event.onlyReadable 5, .oneshot, .idle, false⟩ := get (fun s => s.c.pk 1) (by decide +kernel)
  have htb : s.c.table false 7 = some 1 := get (fun s => s.c.table false 7) (by decide +kernel)
  have hpe : s.c.pending = [] := get (fun s => s.c.pending) (by decide +kernel)
  have hpc : s.pc 0 = .out := get (fun s => s.pc 0) (by decide +kernel)
  obtain ⟨tr, hr⟩ := reach signalled .init hrun
  refine ⟨s, tr, _, hr, hph, ⟨1, by rw [hpo]; decide, by rw [hpk]; rfl⟩, ?_⟩
  intro k
  have t1 : step 1 s .get = some ({ s with c := { s.c with port := [] }, phase := .unpoll ⟨false, 4, false, 0, []⟩ [1] }, .tau) := by
    simp only [step, hph, hpo]; rfl
  have t2 : step 1 { s with c := { s.c with port := [] }, phase := .unpoll ⟨false, 4, false, 0, []⟩ [1] } (.wait none) =
      some ({ s with c := { s.c with port := [], polling := false }, phase := .feed ⟨false, 4, false, 0, []⟩ [1] }, .tau) := rfl
  have t3 : ∃ s3, step 1 { s with c := { s.c with port := [], polling := false }, phase := .feed ⟨false, 4, false, 0, []⟩ [1] } (.wait none) =
      some (s3, .deliver false 7 1 (Event.onlyReadable 5)) ∧ Spins s3 0 .out (.feedUpd ⟨false, 4, false, 0, []⟩ [] (.load 1) (some (Event.onlyReadable 5))) := by
    refine ⟨{ s with phase := .feedUpd ⟨false, 4, false, 0, []⟩ [] (.load 1) (some (Event.onlyReadable 5)), c := (setPk
      { s.c with port := [], polling := false } 1 (.waitable ⟨7, Event.none 5, .oneshot, .idle, false⟩)) }, ?_, setPk_self .., htb, hpe, rfl, hpc, rfl⟩
    simp only [step, goWait, feed, hpk]; rfl
  obtain ⟨s3, e3, h⟩ := t3
  have t4 : ∃ s4, step 1 s3 (.wait none) = some (s4, .tau) ∧ Spins s4 0 .out (.feedUpd ⟨false, 4, false, 0, []⟩ [] (.push 1) (some (Event.onlyReadable 5))) := by
    refine ⟨{ s3 with phase := .feedUpd ⟨false, 4, false, 0, []⟩ [] (.push 1) (some (Event.onlyReadable 5)) }, ?_, h.pk, h.tb, h.pend, h.pol, h.pc, rfl⟩
    simp only [step, goWait, h.ph, ustep, h.pol, coherent]; rfl
  obtain ⟨s4, e4, h⟩ := t4
  obtain ⟨as, s5, g1, h⟩ := go_fill CAPACITY 0 s4 (Nat.zero_add _) h
  obtain ⟨bs, s6, h1, g2⟩ := go_rounds k s5 h
  obtain ⟨l, h3, h4⟩ := (Go.cons t1 (not_ret nofun nofun nofun) (.cons t2 (not_ret nofun nofun nofun) (.cons e3 (not_ret nofun nofun nofun)
    (.cons e4 (not_ret nofun nofun nofun) (g1.append g2))))).run [] (by simp)
  refine ⟨_, s6, l, h3, ?_, h4⟩
  simp only [List.filter_cons, List.filter_append, ioOwn, if_true, List.length_cons, List.length_append]; omega

end Polling.C72
