import Verif.Proof.IocpNotify

/-! IOCP: what the thread inside `wait` does if it runs by itself and the OS refuses nothing. -/

namespace Polling.IocpM
open Iocp IocpSpec

/-- The steps of the thread inside `wait`, no call failing and no time passing. -/
def Own : Act → Prop
  | .wait none | .get | .decide false => True
  | _ => False

/-- A run of the thread inside `wait` alone. -/
inductive Solo (n : Nat) : S → List IObs → S → Prop
  | refl (s) : Solo n s [] s
  | step {s a s1 o obs s2} : Own a → step n s a = some (s1, o) → Solo n s1 obs s2 → Solo n s (obs ++ [o]) s2

theorem Solo.one {n s a s1 o} (h : Own a) (hs : IocpM.step n s a = some (s1, o)) : Solo n s [o] s1 := .step h hs (.refl _)

theorem Solo.trans {n s o1 s1 o2 s2} (h : Solo n s o1 s1) (h' : Solo n s1 o2 s2) : Solo n s (o2 ++ o1) s2 := by
  induction h with
  | refl => simpa using h'
  | step ha hs _ ih => rw [← List.append_assoc]; exact .step ha hs (ih h')

theorem Solo.reach {n s obs s' tr} (h : Solo n s obs s') (hr : Reach n Any s tr) : Reach n Any s' (obs ++ tr) := by
  induction h generalizing tr with
  | refl => exact hr
  | step _ hs _ ih => have := ih (hr.step (P := Any) trivial hs); simpa using this

theorem Reach.any {n P s tr} (h : Reach n P s tr) : Reach n Any s tr := by
  induction h with
  | init => exact .init
  | step _ _ hs ih => exact ih.step trivial hs

/-- What does not change during such a run. -/
def Frame (s s' : S) : Prop := s'.notified = s.notified ∧ s'.pc = s.pc ∧ s'.c.port = s.c.port

theorem Frame.refl (s) : Frame s s := ⟨rfl, rfl, rfl⟩
theorem Frame.trans {s s1 s2} (h : Frame s s1) (h' : Frame s1 s2) : Frame s s2 :=
  ⟨h'.1.trans h.1, h'.2.1.trans h.2.1, h'.2.2.trans h.2.2⟩

theorem update_pending (fault c p) : (update fault c p).2.1.pending = c.pending := (update_frame fault c p).2.2.1

/-- Only updates are observed. -/
def OnlyUpdates (obs : List IObs) : Prop := ∀ o ∈ obs, UObs o

theorem OnlyUpdates.append {l l'} (h : OnlyUpdates l) (h' : OnlyUpdates l') : OnlyUpdates (l ++ l') := by
  intro o ho; rcases List.mem_append.1 ho with h1 | h1
  · exact h o h1
  · exact h' o h1

/-- The update of a packet taken from the queue. -/
theorem solo_upd {n s tr w q} (h : Reach n Any s tr) (hph : s.phase = .upd w q) :
    ∃ s' obs, Solo n s obs s' ∧ OnlyUpdates obs ∧ s'.phase = .pop w ∧ Frame s s' ∧ s'.c.pending = s.c.pending := by
  have hok := update_ok (reach_holder h q (.inr (.inr (by rw [hph]; rfl))))
  have hpe := update_pending none s.c q
  have hpo := (update_frame none s.c q).2.2.2.2.1
  rcases hu : update none s.c q with ⟨r, c, m⟩
  rw [hu] at hok hpe hpo
  subst hok
  refine ⟨{ s with c, phase := .pop w }, [updateObs q m], .one (a := .wait none) trivial ?_, ?_, rfl, ⟨rfl, rfl, hpo⟩, hpe⟩
  · simp only [step, goWait, hph, hu]
  · intro o ho; rw [List.mem_singleton.1 ho]; exact uobs_updateObs q m

/-- The queue of updates is drained, and `wait` gets to the port. -/
theorem solo_pop {n s tr w} (h : Reach n Any s tr) (hph : s.phase = .pop w) :
    ∃ s' obs, Solo n s obs s' ∧ OnlyUpdates obs ∧ s'.phase = .port w ∧ Frame s s' ∧ s'.c.pending = [] := by
  generalize hl : s.c.pending.length = l
  induction l generalizing s tr with
  | zero =>
    have hp : s.c.pending = [] := List.length_eq_zero_iff.1 hl
    refine ⟨{ s with phase := .port w }, [.tau], .one (a := .wait none) trivial ?_, ?_, rfl, ⟨rfl, rfl, rfl⟩, hp⟩
    · simp only [step, goWait, hph, hp]
    · intro o ho; rw [List.mem_singleton.1 ho]; trivial
  | succ l ih =>
    obtain ⟨q, rest, hp⟩ : ∃ q rest, s.c.pending = q :: rest := by
      cases hp : s.c.pending with
      | nil => rw [hp] at hl; cases hl
      | cons q rest => exact ⟨q, rest, rfl⟩
    have hs : step n s (.wait none) = some ({ s with c := { s.c with pending := rest }, phase := .upd w q }, .popped q) := by
      simp only [step, goWait, hph, hp]
    have h1 : Reach n Any { s with c := { s.c with pending := rest }, phase := .upd w q } (.popped q :: tr) := h.step trivial hs
    obtain ⟨s2, o2, r2, u2, p2, f2, q2⟩ := solo_upd h1 rfl
    have hl2 : s2.c.pending.length = l := by rw [q2]; rw [hp] at hl; simpa using hl
    obtain ⟨s3, o3, r3, u3, p3, f3, q3⟩ := ih (r2.reach h1) p2 hl2
    have hr : Solo n s (o3 ++ (o2 ++ [.popped q])) s3 := .trans (.step (a := .wait none) trivial hs r2) r3
    exact ⟨s3, _, hr, u3.append (u2.append (by intro o ho; rw [List.mem_singleton.1 ho]; trivial)), p3, (f2.trans f3), q3⟩

theorem solo_start {n s tr w} (h : Reach n Any s tr) (hph : s.phase = .start w) :
    ∃ s' obs, Solo n s obs s' ∧ OnlyUpdates obs ∧ s'.phase = .port { w with newEvents := 0 } ∧ Frame s s' ∧ s'.c.pending = [] := by
  have hs : step n s (.wait none) = some ({ s with c := { s.c with polling := true }, phase := .pop { w with newEvents := 0 } }, .tau) := by
    simp only [step, goWait, hph]
  have h1 : Reach n Any { s with c := { s.c with polling := true }, phase := .pop { w with newEvents := 0 } } (.tau :: tr) := h.step trivial hs
  obtain ⟨s2, o2, r2, u2, p2, f2, q2⟩ := solo_pop h1 rfl
  exact ⟨s2, _, .step (a := .wait none) trivial hs r2, u2.append (by intro o ho; rw [List.mem_singleton.1 ho]; trivial), p2, f2, q2⟩

theorem solo_top {n s tr timed cap} (h : Reach n Any s tr) (hph : s.phase = .top timed cap) :
    ∃ s' obs, Solo n s obs s' ∧ OnlyUpdates obs ∧ s'.phase = .port ⟨timed, cap, false, 0, []⟩ ∧ Frame s s' ∧ s'.c.pending = [] := by
  have hs : step n s (.wait none) = some ({ s with phase := .start ⟨timed, cap, false, 0, []⟩ }, .tau) := by
    simp only [step, goWait, hph]
  have h1 : Reach n Any { s with phase := .start ⟨timed, cap, false, 0, []⟩ } (.tau :: tr) := h.step trivial hs
  obtain ⟨s2, o2, r2, u2, p2, f2, q2⟩ := solo_start h1 rfl
  exact ⟨s2, _, .step (a := .wait none) trivial hs r2, u2.append (by intro o ho; rw [List.mem_singleton.1 ho]; trivial), p2, f2, q2⟩

/-- `drain_update_queue` during the processing of a completion. -/
theorem solo_drain {n s tr w batch p m ev} (h : Reach n Any s tr) (hph : s.phase = .feedUpd w batch (.pop p m) ev) :
    ∃ s' obs, Solo n s obs s' ∧ s'.phase = .feedUpd w batch (.load p) ev ∧ Frame s s' ∧ s'.c.pending = s.c.pending.drop m := by
  induction m generalizing s tr with
  | zero =>
    refine ⟨{ s with phase := .feedUpd w batch (.load p) ev }, [.tau], .one (a := .wait none) trivial ?_, rfl, ⟨rfl, rfl, rfl⟩, rfl⟩
    simp only [step, goWait, hph, ustep]
  | succ m ih =>
    cases hp : s.c.pending with
    | nil =>
      refine ⟨{ s with phase := .feedUpd w batch (.load p) ev }, [.tau], .one (a := .wait none) trivial ?_, rfl, ⟨rfl, rfl, rfl⟩, by simp [hp]⟩
      simp only [step, goWait, hph, ustep, hp]
    | cons q rest =>
      have hs : step n s (.wait none) = some ({ s with c := { s.c with pending := rest }, phase := .feedUpd w batch (.drain p m q) ev }, .popped q) := by
        simp only [step, goWait, hph, ustep, hp]
      have h1 : Reach n Any { s with c := { s.c with pending := rest }, phase := .feedUpd w batch (.drain p m q) ev } (.popped q :: tr) := h.step trivial hs
      have hok := update_ok (reach_holder h1 q (.inr (.inr (.inr rfl))))
      have hpe := update_pending none { s.c with pending := rest } q
      have hpo := (update_frame none { s.c with pending := rest } q).2.2.2.2.1
      dsimp only at hok
      rcases hu : update none { s.c with pending := rest } q with ⟨r, c, mm⟩
      rw [hu] at hok hpe hpo
      subst hok
      have hs2 : step n { s with c := { s.c with pending := rest }, phase := .feedUpd w batch (.drain p m q) ev } (.wait none) =
          some ({ s with c, phase := .feedUpd w batch (.pop p m) ev }, updateObs q mm) := by
        simp only [step, goWait, ustep, coherent, hu]
      obtain ⟨s3, o3, r3, p3, f3, q3⟩ := ih (h1.step (P := Any) trivial hs2) rfl
      refine ⟨s3, _, .step (a := .wait none) trivial hs (.step (a := .wait none) trivial hs2 r3), p3,
        ⟨f3.1, f3.2.1, f3.2.2.trans hpo⟩, ?_⟩
      rw [q3]
      show c.pending.drop m = rest.drop m
      rw [show c.pending = rest from hpe]

/-- A completion puts its registration up for an update. -/
theorem solo_push {n s tr w batch p ev} (h : Reach n Any s tr) (hph : s.phase = .feedUpd w batch (.push p) ev) (hl : s.c.pending.length < CAPACITY) :
    ∃ s' obs, Solo n s obs s' ∧ s'.phase = .feed (addEvent w ev) batch ∧ Frame s s' := by
  refine ⟨{ s with c := { s.c with pending := s.c.pending ++ [p] }, phase := .feed (addEvent w ev) batch }, [.queued p],
    .one (a := .wait none) trivial ?_, rfl, ⟨rfl, rfl, rfl⟩⟩
  simp only [step, goWait, hph, ustep, if_pos hl]

theorem solo_load {n s tr w batch p ev} (h : Reach n Any s tr) (hph : s.phase = .feedUpd w batch (.load p) ev) :
    ∃ s', Solo n s [.tau] s' ∧ s'.phase = .feedUpd w batch (.push p) ev ∧ Frame s s' ∧ s'.c.pending = s.c.pending := by
  have hpol := reach_polling h
  rw [hph] at hpol
  refine ⟨{ s with phase := .feedUpd w batch (.push p) ev }, .one (a := .wait none) trivial ?_, rfl, ⟨rfl, rfl, rfl⟩, rfl⟩
  simp only [step, goWait, hph, ustep]
  rw [show s.c.polling = false from hpol]
  rfl

/-- From any point in `update_packet`. -/
theorem solo_feedUpd {n s tr w batch u ev} (h : Reach n Any s tr) (hph : s.phase = .feedUpd w batch u ev) :
    ∃ s' obs, Solo n s obs s' ∧ s'.phase = .feed (addEvent w ev) batch ∧ Frame s s' := by
  -- the queue has at most `CAPACITY` entries: once it was full and is drained, there is room
  have push : ∀ {s : S} {tr p}, Reach n Any s tr → s.phase = .feedUpd w batch (.push p) ev →
      ∃ s' obs, Solo n s obs s' ∧ s'.phase = .feed (addEvent w ev) batch ∧ Frame s s' := by
    intro s tr p h hph
    by_cases hl : s.c.pending.length < CAPACITY
    · exact solo_push h hph hl
    · have hs : step n s (.wait none) = some ({ s with phase := .feedUpd w batch (.pop p CAPACITY) ev }, .tau) := by
        simp only [step, goWait, hph, ustep, if_neg hl]
      have h1 := h.step (P := Any) trivial hs
      obtain ⟨s2, o2, r2, p2, f2, q2⟩ := solo_drain h1 rfl
      have h2 := r2.reach h1
      obtain ⟨s3, r3, p3, f3, q3⟩ := solo_load h2 p2
      have h3 := r3.reach h2
      have hempty : s3.c.pending.length < CAPACITY := by
        have := (reach_queue h).2
        rw [q3, q2, List.length_drop]
        show s.c.pending.length - CAPACITY < CAPACITY
        have : CAPACITY > 0 := by decide
        omega
      obtain ⟨s4, o4, r4, p4, f4⟩ := solo_push h3 p3 hempty
      exact ⟨s4, _, .trans (.trans (.step (a := .wait none) trivial hs r2) r3) r4, p4, f2.trans (f3.trans f4)⟩
  have load : ∀ {s : S} {tr p}, Reach n Any s tr → s.phase = .feedUpd w batch (.load p) ev →
      ∃ s' obs, Solo n s obs s' ∧ s'.phase = .feed (addEvent w ev) batch ∧ Frame s s' := by
    intro s tr p h hph
    obtain ⟨s1, r1, p1, f1, _⟩ := solo_load h hph
    obtain ⟨s2, o2, r2, p2, f2⟩ := push (r1.reach h) p1
    exact ⟨s2, _, r1.trans r2, p2, f1.trans f2⟩
  have pop : ∀ {s : S} {tr p m}, Reach n Any s tr → s.phase = .feedUpd w batch (.pop p m) ev →
      ∃ s' obs, Solo n s obs s' ∧ s'.phase = .feed (addEvent w ev) batch ∧ Frame s s' := by
    intro s tr p m h hph
    obtain ⟨s1, o1, r1, p1, f1, _⟩ := solo_drain h hph
    obtain ⟨s2, o2, r2, p2, f2⟩ := load (r1.reach h) p1
    exact ⟨s2, _, r1.trans r2, p2, f1.trans f2⟩
  cases u with
  | load p => exact load h hph
  | push p => exact push h hph
  | pop p m => exact pop h hph
  | run p => exact absurd rfl (reach_feedUpd h _ _ _ _ hph p)
  | drain p m q =>
    have hok := update_ok (reach_holder h q (.inr (.inr (by rw [hph]; exact .inr rfl))))
    have hpo := (update_frame none s.c q).2.2.2.2.1
    rcases hu : update none s.c q with ⟨r, c, mm⟩
    rw [hu] at hok hpo
    subst hok
    have hs : step n s (.wait none) = some ({ s with c, phase := .feedUpd w batch (.pop p m) ev }, updateObs q mm) := by
      simp only [step, goWait, hph, ustep, coherent, hu]
    obtain ⟨s2, o2, r2, p2, f2⟩ := pop (h.step (P := Any) trivial hs) rfl
    exact ⟨s2, _, .step (a := .wait none) trivial hs r2, p2, ⟨f2.1, f2.2.1, f2.2.2.trans hpo⟩⟩

/-- The completions of a batch are processed. -/
theorem solo_feed {n s tr w batch} (h : Reach n Any s tr) (hph : s.phase = .feed w batch) :
    ∃ s' obs w', Solo n s obs s' ∧ s'.phase = .feed w' [] ∧ Frame s s' ∧ w'.timed = w.timed ∧ w'.cap = w.cap ∧ w.newEvents ≤ w'.newEvents ∧
      (w.notified = true ∨ NOTIFIER ∈ batch → w'.notified = true) := by
  induction batch generalizing s tr w with
  | nil => exact ⟨s, [], w, .refl _, hph, .refl _, rfl, rfl, Nat.le_refl _, by simp⟩
  | cons p batch ih =>
    have hfr := (feed_frame s.c p).2.2.2.2.1
    have hadd : ∀ (w : W) ev, (addEvent w ev).notified = w.notified ∧ (addEvent w ev).timed = w.timed ∧ (addEvent w ev).cap = w.cap ∧
        w.newEvents ≤ (addEvent w ev).newEvents := by
      intro w ev; cases ev
      · exact ⟨rfl, rfl, rfl, Nat.le_refl _⟩
      · exact ⟨rfl, rfl, rfl, Nat.le_succ _⟩
    have hwake : feed s.c NOTIFIER = (.notified, s.c) := by unfold feed; rw [(reach_ti h).wake]
    have hother : (feed s.c p).1 ≠ .notified → p ≠ NOTIFIER := by rintro h1 rfl; rw [hwake] at h1; exact h1 rfl
    -- processing one entry leads to `feed w1 batch`
    have one : ∃ s1 o1 w1, Solo n s o1 s1 ∧ s1.phase = .feed w1 batch ∧ Frame s s1 ∧ w1.timed = w.timed ∧ w1.cap = w.cap ∧ w.newEvents ≤ w1.newEvents ∧
        (w.notified = true ∨ p = NOTIFIER → w1.notified = true) := by
      have hns := feed_not_stuck h p
      rcases hf : feed s.c p with ⟨f, c⟩
      rw [hf] at hfr hns hother
      cases f with
      | noEvent =>
        refine ⟨{ s with c, phase := .feed w batch }, _, w, .one (a := .wait none) trivial (by simp only [step, goWait, hph, hf]; rfl), rfl, ⟨rfl, rfl, hfr⟩, rfl, rfl, Nat.le_refl _, ?_⟩
        exact fun h => h.resolve_right (hother nofun)
      | notified =>
        refine ⟨{ s with c, phase := .feed { w with notified := true } batch }, _, { w with notified := true },
          .one (a := .wait none) trivial (by simp only [step, goWait, hph, hf]; rfl), rfl, ⟨rfl, rfl, hfr⟩, rfl, rfl, Nat.le_refl _, ?_⟩
        exact fun _ => rfl
      | custom ev =>
        obtain ⟨a1, a2, a3, a4⟩ := hadd w (some ev)
        refine ⟨{ s with c, phase := .feed (addEvent w (some ev)) batch }, _, _, .one (a := .wait none) trivial (by simp only [step, goWait, hph, hf]; rfl), rfl, ⟨rfl, rfl, hfr⟩, a2, a3, a4, ?_⟩
        rw [a1]; exact fun h => h.resolve_right (hother nofun)
      | localClose => exact absurd rfl hns
      | update k fd ev =>
        obtain ⟨a1, a2, a3, a4⟩ := hadd w ev
        have hs : step n s (.wait none) = some ({ s with c, phase := .feedUpd w batch (.load p) ev },
            match ev with | some ev => .deliver k fd p ev | none => .tau) := by simp only [step, goWait, hph, hf]; cases ev <;> rfl
        obtain ⟨s2, o2, r2, p2, f2⟩ := solo_feedUpd (h.step (P := Any) trivial hs) rfl
        refine ⟨s2, _, addEvent w ev, .step (a := .wait none) trivial hs r2, p2, ⟨f2.1, f2.2.1, f2.2.2.trans hfr⟩, a2, a3, a4, ?_⟩
        rw [a1]; exact fun h => h.resolve_right (hother nofun)
    obtain ⟨s1, o1, w1, r1, p1, f1, t1, c1, n1, b1⟩ := one
    obtain ⟨s2, o2, w2, r2, p2, f2, t2, c2, n2, b2⟩ := ih (r1.reach h) p1
    refine ⟨s2, _, w2, r1.trans r2, p2, f1.trans f2, t2.trans t1, c2.trans c1, by omega, ?_⟩
    rw [List.mem_cons]
    rintro (h | h | h)
    · exact b2 (.inl (b1 (.inl h)))
    · exact b2 (.inl (b1 (.inr h.symm)))
    · exact b2 (.inr h)

/-- The buffers have room (`Events` has a capacity of at least one, lib.rs:832-860). -/
theorem reach_cap {n P s tr} (h : Reach n P s tr) : (∀ timed cap, s.phase = .top timed cap → cap > 0) ∧ ∀ w, s.phase.w? = some w → w.cap > 0 := by
  induction h with
  | init => exact ⟨nofun, nofun⟩
  | @step s tr a s' o hr _ hs ih =>
    obtain ⟨i1, i2⟩ := ih
    have keep : s'.phase = s.phase → (∀ timed cap, s'.phase = .top timed cap → cap > 0) ∧ ∀ w, s'.phase.w? = some w → w.cap > 0 :=
      fun h => by rw [h]; exact ⟨i1, i2⟩
    have to : ∀ (w : W), s.phase.w? = some w → (∀ timed cap, s'.phase = .top timed cap → cap = w.cap) → (∀ w', s'.phase.w? = some w' → w'.cap = w.cap) →
        (∀ timed cap, s'.phase = .top timed cap → cap > 0) ∧ ∀ w, s'.phase.w? = some w → w.cap > 0 := by
      intro w h1 h2 h3
      have := i2 w h1
      exact ⟨fun t c h => by rw [h2 t c h]; exact this, fun w' h => by rw [h3 w' h]; exact this⟩
    have hadd : ∀ (w : W) ev, (addEvent w ev).cap = w.cap := by intro w ev; cases ev <;> rfl
    cases a with
    | go t fault =>
      simp only [step] at hs
      split at hs
      · cases hs
      · exact keep (noFind_goCall hs).2
    | waitBegin timed cap =>
      simp only [step] at hs
      repeat' split at hs
      all_goals cases hs
      rename_i hc
      exact ⟨fun _ _ h => by cases h; omega, nofun⟩
    | wait fault =>
      simp only [step, goWait, waitFail] at hs
      split at hs
      · rename_i hph; cases hs
        exact ⟨nofun, fun w h => by cases h; exact i1 _ _ hph⟩
      · rename_i w hph; cases hs
        exact to w (by rw [hph]; rfl) nofun (fun _ h => by cases h; rfl)
      · rename_i w hph; split at hs <;> (cases hs; exact to w (by rw [hph]; rfl) nofun (fun _ h => by cases h; rfl))
      · rename_i w q hph; split at hs <;> (cases hs; exact to w (by rw [hph]; rfl) nofun (fun _ h => by cases h; rfl))
      · rename_i w q hph; cases hs; exact to w (by rw [hph]; rfl) nofun (fun _ h => by cases h; rfl)
      · rename_i w q hph
        split at hs
        · cases hs; exact to w (by rw [hph]; rfl) (fun _ _ h => by cases h; rfl) nofun
        · cases hs; exact ⟨nofun, nofun⟩
      · rename_i w q hph
        split at hs
        · cases hs; exact to w (by rw [hph]; rfl) (fun _ _ h => by cases h; rfl) nofun
        · cases hs; exact ⟨nofun, nofun⟩
      · rename_i w _ _ _ hph; cases hs; exact to w (by rw [hph]; rfl) nofun (fun _ h => by cases h; rfl)
      · rename_i w p batch hph
        split at hs
        · cases hs; exact to w (by rw [hph]; rfl) nofun (fun _ h => by cases h; rfl)
        · cases hs; exact to w (by rw [hph]; rfl) nofun (fun _ h => by cases h; rfl)
        · cases hs; exact to w (by rw [hph]; rfl) nofun (fun _ h => by cases h; rfl)
        · cases hs; exact ⟨nofun, nofun⟩
        · cases hs; exact to w (by rw [hph]; rfl) nofun (fun _ h => by cases h; rfl)
      · rename_i w batch u ev hph
        split at hs
        · cases hs; exact to w (by rw [hph]; rfl) nofun (fun _ h => by cases h; rfl)
        · cases hs; exact to w (by rw [hph]; rfl) nofun (fun _ h => by cases h; exact hadd w ev)
        · cases hs; exact to w (by rw [hph]; rfl) nofun (fun _ h => by cases h; rfl)
      · cases hs; exact ⟨nofun, nofun⟩
      · cases hs
    | get =>
      simp only [step] at hs
      repeat' split at hs
      all_goals cases hs
      rename_i w hph _
      exact to w (by rw [hph]; rfl) nofun (fun _ h => by cases h; rfl)
    | getFail e =>
      simp only [step] at hs
      split at hs <;> cases hs
      rename_i w hph
      exact to w (by rw [hph]; rfl) nofun (fun _ h => by cases h; rfl)
    | decide e =>
      simp only [step] at hs
      repeat' split at hs
      all_goals cases hs
      · exact ⟨nofun, nofun⟩
      · rename_i w hph _
        exact to w (by rw [hph]; rfl) nofun (fun _ h => by cases h; rfl)
    | _ =>
      simp only [step] at hs
      repeat' split at hs
      all_goals cases hs
      all_goals exact keep rfl

/-- The thread inside `wait`, running alone, gets to the return with `Ok`. -/
def Returns (n : Nat) (s : S) : Prop := ∃ s' m evs obs, Solo n s (.waitOk m evs :: obs) s' ∧ s'.phase = .idle ∧ s'.notified = false

theorem Returns.after {n s obs s1} (h : Solo n s obs s1) (h' : Returns n s1) : Returns n s := by
  obtain ⟨s', m, evs, obs', hr, h1, h2⟩ := h'
  exact ⟨s', m, evs, obs' ++ obs, .trans h hr, h1, h2⟩

theorem solo_fin {n s evs} (hph : s.phase = .fin evs) : Returns n s :=
  ⟨{ s with notified := false, phase := .idle }, _, _, [], .one (a := .wait none) trivial (by simp only [step, goWait, hph]; rfl), rfl, rfl⟩

/-- All completions of the batch are processed: either `wait` returns or it starts over. -/
theorem solo_decide {n s tr w} (h : Reach n Any s tr) (hph : s.phase = .feed w []) :
    Returns n s ∨ (w.notified = false ∧ w.newEvents = 0 ∧ ∃ s' obs, Solo n s obs s' ∧ s'.phase = .port { w with newEvents := 0 } ∧ Frame s s') := by
  by_cases hd : w.notified = true ∨ w.newEvents > 0
  · left
    have hs : step n s (.decide false) = some ({ s with phase := .fin w.evs }, .tau) := by
      simp only [step, hph]
      rw [if_pos (hd.imp_right .inl)]
    exact .after (.one (a := .decide false) trivial hs) (solo_fin rfl)
  · right
    have hn : w.notified = false ∧ w.newEvents = 0 := by
      refine ⟨?_, by omega⟩
      cases hb : w.notified
      · rfl
      · exact absurd (.inl hb) hd
    have hs : step n s (.decide false) = some ({ s with phase := .start w }, .tau) := by
      simp only [step, hph]
      rw [if_neg]
      rintro (h | h | h)
      · exact hd (.inl h)
      · exact hd (.inr h)
      · cases h.2
    have h1 : Reach n Any { s with phase := .start w } (.tau :: tr) := h.step trivial hs
    obtain ⟨s2, o2, r2, _, p2, f2, _⟩ := solo_start h1 rfl
    exact ⟨hn.1, hn.2, s2, _, .step (a := .decide false) trivial hs r2, p2, f2⟩

/-- One round from `port.wait`. -/
theorem solo_round {n s tr w} (h : Reach n Any s tr) (hph : s.phase = .port w) (hne : s.c.port ≠ []) :
    Returns n s ∨ (NOTIFIER ∉ s.c.port.take w.cap ∧ ∃ s' obs w', Solo n s obs s' ∧ s'.phase = .port w' ∧ w'.cap = w.cap ∧ w'.timed = w.timed ∧
      s'.notified = s.notified ∧ s'.pc = s.pc ∧ s'.c.port = s.c.port.drop w.cap) := by
  have hs : step n s .get = some ({ s with c := { s.c with port := s.c.port.drop w.cap }, phase := .unpoll w (s.c.port.take w.cap) }, .tau) := by
    simp only [step, hph]
    rw [if_pos (.inl hne)]
  have h1 := h.step (P := Any) trivial hs
  have hs2 : step n { s with c := { s.c with port := s.c.port.drop w.cap }, phase := .unpoll w (s.c.port.take w.cap) } (.wait none) =
      some ({ s with c := { s.c with port := s.c.port.drop w.cap, polling := false }, phase := .feed w (s.c.port.take w.cap) }, .tau) := by
    simp only [step, goWait]
  have h2 := h1.step (P := Any) trivial hs2
  have r2 : Solo n s [.tau, .tau] { s with c := { s.c with port := s.c.port.drop w.cap, polling := false }, phase := .feed w (s.c.port.take w.cap) } :=
    .step (a := .get) trivial hs (.one (a := .wait none) trivial hs2)
  obtain ⟨s3, o3, w3, r3, p3, f3, t3, c3, n3, b3⟩ := solo_feed h2 rfl
  have h3 := r3.reach h2
  rcases solo_decide h3 p3 with hr | ⟨hn, _, s4, o4, r4, p4, f4⟩
  · exact .inl (.after (r2.trans r3) hr)
  · refine .inr ⟨fun hm => ?_, s4, _, _, (r2.trans r3).trans r4, p4, c3, t3, (f3.trans f4).1, (f3.trans f4).2.1, (f3.trans f4).2.2⟩
    rw [b3 (.inr hm)] at hn
    cases hn

/-- A `wait` that is blocked returns if the notification is in the port, whatever else is there. -/
theorem solo_port {n s tr w} (h : Reach n Any s tr) (hph : s.phase = .port w) (hm : NOTIFIER ∈ s.c.port) : Returns n s := by
  generalize hl : s.c.port.length = l
  induction l using Nat.strongRecOn generalizing s tr w with
  | ind l ih =>
    have hne : s.c.port ≠ [] := by intro h0; rw [h0] at hm; cases hm
    have hcap : w.cap > 0 := (reach_cap h).2 w (by rw [hph]; rfl)
    rcases solo_round h hph hne with hr | ⟨hnot, s', obs, w', hr, hp', hc', _, _, _, hpo⟩
    · exact hr
    · have hm' : NOTIFIER ∈ s'.c.port := by
        rw [hpo]
        rw [← List.take_append_drop w.cap s.c.port] at hm
        exact (List.mem_append.1 hm).resolve_left hnot
      have hlt : s'.c.port.length < l := by
        have : s.c.port.length > 0 := List.length_pos_iff.2 hne
        rw [hpo, List.length_drop]; omega
      exact .after hr (ih _ hlt (hr.reach h) hp' hm' rfl)

/-- A `wait` in progress (that has not failed) returns if a notification is in the port or was found. -/
theorem solo_returns {n s tr} (h : Reach n Any s tr) (hi : s.phase ≠ .idle) (hf : ∀ w e, s.phase ≠ .fail w e)
    (hnd : ∀ w e b, s.phase ≠ .drain w e b)     (hc : s.phase.told = true ∨ NOTIFIER ∈ entries s) : Returns n s := by
  have port : ∀ {s1 : S} {obs w}, Solo n s obs s1 → s1.phase = .port w → NOTIFIER ∈ s1.c.port → Returns n s :=
    fun hr hp hm => .after hr (solo_port (hr.reach h) hp hm)
  have feed : ∀ {s1 : S} {obs w b}, Solo n s obs s1 → s1.phase = .feed w b → (w.notified = true ∨ NOTIFIER ∈ b ∨ NOTIFIER ∈ s1.c.port) → Returns n s := by
    intro s1 obs w b hr hp hm
    obtain ⟨s3, o3, w3, r3, p3, f3, t3, c3, n3, b3⟩ := solo_feed (hr.reach h) hp
    rcases solo_decide (r3.reach (hr.reach h)) p3 with hr' | ⟨hn, _, s4, o4, r4, p4, f4⟩
    · exact .after (hr.trans r3) hr'
    · refine port ((hr.trans r3).trans r4) p4 ?_
      rw [(f3.trans f4).2.2]
      rcases hm with hm | hm | hm
      · rw [b3 (.inl hm)] at hn; cases hn
      · rw [b3 (.inr hm)] at hn; cases hn
      · exact hm
  unfold entries at hc
  cases hph : s.phase with
  | idle => exact absurd hph hi
  | stuck => exact absurd hph (reach_not_stuck h)
  | fail w e => exact absurd hph (hf w e)
  | drain w e b => exact absurd hph (hnd w e b)
  | fin evs => exact solo_fin hph
  | top timed cap =>
    rw [hph] at hc
    obtain ⟨s1, o1, r1, _, p1, f1, _⟩ := solo_top h hph
    exact port r1 p1 (by rw [f1.2.2]; exact hc.resolve_left nofun)
  | start w =>
    rw [hph] at hc
    obtain ⟨s1, o1, r1, _, p1, f1, _⟩ := solo_start h hph
    exact port r1 p1 (by rw [f1.2.2]; exact hc.resolve_left nofun)
  | pop w =>
    rw [hph] at hc
    obtain ⟨s1, o1, r1, _, p1, f1, _⟩ := solo_pop h hph
    exact port r1 p1 (by rw [f1.2.2]; exact hc.resolve_left nofun)
  | upd w q =>
    rw [hph] at hc
    obtain ⟨s1, o1, r1, _, p1, f1, _⟩ := solo_upd h hph
    obtain ⟨s2, o2, r2, _, p2, f2, _⟩ := solo_pop (r1.reach h) p1
    exact port (r1.trans r2) p2 (by rw [(f1.trans f2).2.2]; exact hc.resolve_left nofun)
  | port w =>
    rw [hph] at hc
    exact solo_port h hph (hc.resolve_left nofun)
  | unpoll w b =>
    rw [hph] at hc
    have hs : step n s (.wait none) = some ({ s with c := { s.c with polling := false }, phase := .feed w b }, .tau) := by
      simp only [step, goWait, hph]
    exact feed (.one (a := .wait none) trivial hs) rfl (.inr (List.mem_append.1 (hc.resolve_left nofun)))
  | feed w b =>
    rw [hph] at hc
    exact feed (.refl s) hph (hc.imp_right List.mem_append.1)
  | feedUpd w b u ev =>
    rw [hph] at hc
    obtain ⟨s1, o1, r1, p1, f1⟩ := solo_feedUpd h hph
    have hadd : (addEvent w ev).notified = w.notified := by cases ev <;> rfl
    refine feed r1 p1 ?_
    rw [f1.2.2, hadd]
    exact hc.imp_right List.mem_append.1

end Polling.IocpM
