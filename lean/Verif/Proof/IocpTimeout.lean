import Verif.Proof.IocpClock
import Verif.Proof.LiveIocpSolo
import Verif.Proof.HandRun

/-! Once the timeout has passed, `wait` comes to its end: IOCP. -/

namespace Polling.IocpC
open IocpM Iocp IocpSpec Spec

/-- The time since `Poller::wait` computed what is left. -/
def sinceLeft : List (Act × Obs) → Nat
  | [] => 0
  | (.remaining, _) :: _ => 0
  | (.tick dt, _) :: l => sinceLeft l + dt
  | _ :: l => sinceLeft l

/-- The time that the latest entry into the backend took from there to its own deadline. -/
def lag : List (Act × Obs) → Nat
  | [] => 0
  | (.deadline, _) :: l => sinceLeft l
  | _ :: l => lag l

/-- In the backend, or past it. -/
def past : Phase → Bool
  | .idle | .top _ _ => false
  | _ => true

/-- Whether the `wait` in progress has a timeout. -/
def timedOf : Phase → Option Bool
  | .top timed _ => some timed
  | .start w | .pop w | .upd w _ | .port w | .unpoll w _ | .feed w _ | .feedUpd w _ _ _ | .fail w _ | .drain w _ _ => some w.timed
  | _ => none

theorem addEvent_timed (w : W) (ev) : (addEvent w ev).timed = w.timed := by cases ev <;> rfl

theorem waitFail_phase (s : IocpM.S) (w e) : past (waitFail s w e).1.phase = false ∧ ∀ b, timedOf (waitFail s w e).1.phase = some b → w.timed = b := by
  unfold waitFail
  split
  · exact ⟨rfl, fun b h => by cases h; rfl⟩
  · exact ⟨rfl, fun b h => by cases h⟩

theorem phase_next {n s a s' o} (h : IocpM.step n s a = some (s', o)) (hw : ∀ b cap, a ≠ .waitBegin b cap) :
    (past s'.phase = true → past s.phase = true ∨ (atTop s.phase = true ∧ ∃ f, a = .wait f)) ∧
    (∀ b, timedOf s'.phase = some b → timedOf s.phase = some b) := by
  have keep : s'.phase = s.phase → (past s'.phase = true → past s.phase = true ∨ (atTop s.phase = true ∧ ∃ f, a = .wait f)) ∧
    (∀ b, timedOf s'.phase = some b → timedOf s.phase = some b) := by
    intro e; rw [e]; exact ⟨.inl, fun _ h => h⟩
  cases a
  case waitBegin b cap => exact absurd rfl (hw b cap)
  case go t fault =>
    simp only [IocpM.step] at h
    split at h
    · cases h
    · exact keep (noFind_goCall h).2
  case wait fault =>
    simp only [IocpM.step, goWait] at h
    split at h
    · next hp => cases h; rw [hp]; exact ⟨fun _ => .inr ⟨rfl, _, rfl⟩, fun _ h => h⟩
    · next hp => cases h; rw [hp]; exact ⟨fun _ => .inl rfl, fun _ h => h⟩
    · next hp => split at h <;> (cases h; rw [hp]; exact ⟨fun _ => .inl rfl, fun _ h => h⟩)
    · next hp => split at h <;> (cases h; rw [hp]; exact ⟨fun _ => .inl rfl, fun _ h => h⟩)
    · next hp => cases h; rw [hp]; exact ⟨fun _ => .inl rfl, fun _ h => h⟩
    · next w e hp =>
      have e' := congrArg Prod.fst (Option.some.inj h)
      rw [hp]
      exact ⟨fun _ => .inl rfl, fun b hb => congrArg some ((waitFail_phase _ w e).2 b (by rw [e']; exact hb))⟩
    · next w e hp =>
      have e' := congrArg Prod.fst (Option.some.inj h)
      rw [hp]
      exact ⟨fun _ => .inl rfl, fun b hb => congrArg some ((waitFail_phase _ w e).2 b (by rw [e']; exact hb))⟩
    · next hp => cases h; rw [hp]; exact ⟨fun _ => .inl rfl, fun _ h => h⟩
    · next w p batch hp =>
      split at h <;> cases h
      all_goals
        rw [hp]
        refine ⟨fun _ => .inl rfl, fun b hb => ?_⟩
        first | exact hb | (cases hb; done) | (simp only [timedOf, addEvent_timed] at hb ⊢; exact hb)
    · next w batch u ev hp =>
      split at h <;> cases h
      all_goals
        rw [hp]
        refine ⟨fun _ => .inl rfl, fun b hb => ?_⟩
        simp only [timedOf, addEvent_timed] at hb ⊢; exact hb
    · next hp => cases h; rw [hp]; exact ⟨fun _ => .inl rfl, fun _ h => by cases h⟩
    · cases h
  case get =>
    simp only [IocpM.step] at h
    split at h
    · next hp =>
      split at h <;> cases h
      rw [hp]; exact ⟨fun _ => .inl rfl, fun _ h => h⟩
    · cases h
  case getFail =>
    simp only [IocpM.step] at h
    split at h
    · next hp => cases h; rw [hp]; exact ⟨fun _ => .inl rfl, fun _ h => h⟩
    · cases h
  case decide =>
    simp only [IocpM.step] at h
    split at h
    · next hp =>
      split at h <;> cases h
      · rw [hp]; exact ⟨fun _ => .inl rfl, fun _ h => by cases h⟩
      · rw [hp]; exact ⟨fun _ => .inl rfl, fun _ h => h⟩
    · cases h
  all_goals
    simp only [IocpM.step] at h
    repeat' split at h
    all_goals cases h
    all_goals exact keep rfl

/-- The deadlines, against what was seen since the latest `wait` began. -/
structure Dl (s : S) (l : List (Act × Obs)) : Prop where
  sp : spent (l.filterMap handT) ≤ s.now
  dl : ∀ T, timeoutOf (l.filterMap handT) = some T → s.now - spent (l.filterMap handT) + T ≤ windowsMaxNs →
    s.dl = some (s.now - spent (l.filterMap handT) + T)
  left : s.stage = .left → sinceLeft l ≤ s.now ∧ s.rem = s.dl.map fun d => saturatingSince d (s.now - sinceLeft l)
  set : s.stage = .set → ∃ t2, t2 ≤ s.now ∧ lag l ≤ t2 ∧
    s.dl2 = (s.dl.map fun d => saturatingSince d (t2 - lag l)).bind (instantCheckedAdd windowsMaxNs t2)
  stage : past s.i.phase = true → s.stage = .set
  timed : ∀ b, timedOf s.i.phase = some b → (timeoutOf (l.filterMap handT)).isSome = b

theorem after_i (s : S) : (after s).i = s.i := by unfold after; split <;> rfl

theorem reach_dl {n P s l} (h : Runs (fun s => ∃ now, s = init now) (step n) P s l) : Dl s l := by
  induction h with
  | @init s hi =>
    obtain ⟨now, rfl⟩ := hi
    exact ⟨Nat.zero_le _, (by intro T h; cases h), (by intro h; cases h), (by intro h; cases h), (by intro h; cases h), (by intro b h; cases h)⟩
  | @step s l a s' o hr _ hs ih =>
    obtain ⟨i1, i2, i3, i4, i5, i6⟩ := ih
    have eT : ((a, o) :: l).filterMap handT = (handT (a, o)).toList ++ l.filterMap handT := by
      rw [List.filterMap_cons]; cases handT (a, o) <;> rfl
    -- an action of `IocpM` changes neither what is seen of the time nor the deadlines
    have act : ∀ {b}, a = .act b → timeoutOf (((a, o) :: l).filterMap handT) = timeoutOf (l.filterMap handT) ∧
        spent (((a, o) :: l).filterMap handT) = spent (l.filterMap handT) := by
      intro b e
      rw [eT, e]
      cases hT : handT (.act b, o) with
      | none => exact ⟨rfl, rfl⟩
      | some x => rcases handT_act hT with rfl | ⟨n, rfl⟩ <;> exact ⟨rfl, rfl⟩
    cases step_kind hs with
    | tick dt =>
      have e : spent (((.tick dt, (none, false)) :: l).filterMap handT) = spent (l.filterMap handT) + dt := rfl
      have es : s.now + dt - spent (((.tick dt, (none, false)) :: l).filterMap handT) = s.now - spent (l.filterMap handT) := by rw [e]; omega
      refine ⟨?_, ?_, ?_, ?_, i5, i6⟩
      · rw [e]; show _ ≤ s.now + dt; omega
      · intro T hT
        show s.now + dt - _ + T ≤ _ → s.dl = some (s.now + dt - _ + T)
        rw [es]; exact i2 T hT
      · intro hst
        obtain ⟨a, b⟩ := i3 hst
        refine ⟨Nat.add_le_add_right a dt, ?_⟩
        show s.rem = s.dl.map fun d => saturatingSince d (s.now + dt - (sinceLeft l + dt))
        rw [Nat.add_sub_add_right]; exact b
      · intro hst
        obtain ⟨t2, a, b, c⟩ := i4 hst
        exact ⟨t2, Nat.le_trans a (Nat.le_add_right _ _), b, c⟩
    | remaining =>
      have hst : s.stage = .top := by
        simp only [step] at hs
        split at hs
        · assumption
        · cases hs
      refine ⟨i1, i2, fun _ => ⟨Nat.zero_le _, rfl⟩, (by intro h; cases h), ?_, i6⟩
      intro hp
      rw [i5 hp] at hst; cases hst
    | deadline =>
      have hst : s.stage = .left := by
        simp only [step] at hs
        split at hs
        · assumption
        · cases hs
      obtain ⟨a, b⟩ := i3 hst
      refine ⟨i1, i2, (by intro h; cases h), fun _ => ⟨s.now, Nat.le_refl _, a, ?_⟩, fun _ => rfl, i6⟩
      show s.rem.bind (instantCheckedAdd windowsMaxNs s.now) = _
      rw [b]; rfl
    | wait timeout cap i o hp =>
      simp only [IocpM.step] at hp
      split at hp
      · split at hp
        · cases hp
        · cases hp
          refine ⟨Nat.zero_le _, ?_, (by intro h; cases h), (by intro h; cases h), (by intro h; cases h), ?_⟩
          · intro T hT
            cases timeout with
            | none => cases hT
            | some T' =>
              cases hT
              intro hle
              show instantCheckedAdd windowsMaxNs s.now T' = some (s.now - 0 + T'.ns)
              have hle : s.now + T'.ns ≤ windowsMaxNs := hle
              unfold instantCheckedAdd
              rw [if_pos hle]; rfl
          · intro b hb
            cases hb
            show (timeout.map Duration.ns).isSome = _
            rw [Option.isSome_map]
      · cases hp
    | go fault i o hp =>
      obtain ⟨e1, e2⟩ := act (b := .wait fault) rfl
      obtain ⟨p1, p2⟩ := phase_next hp (by intro b cap e; cases e)
      have hset : past i.phase = true → s.stage = .set := by
        intro hpa
        rcases p1 hpa with h | ⟨h, _⟩
        · exact i5 h
        · simp only [step, h, Bool.true_and] at hs
          split at hs
          · cases hs
          · next hne => simpa using hne
      have hb : Dl { s with i } ((.act (.wait fault), (some o, false)) :: l) :=
        ⟨by rw [e2]; exact i1, by rw [e1, e2]; exact i2, i3, i4, hset, by rw [e1]; exact fun b hb => i6 b (p2 b hb)⟩
      obtain ⟨b1, b2, b3, b4, b5, b6⟩ := hb
      unfold after
      split
      · next hph =>
        refine ⟨b1, b2, (by intro h; cases h), (by intro h; cases h), ?_, b6⟩
        intro hpa
        dsimp only at hpa hph
        rw [hph] at hpa; cases hpa
      · exact ⟨b1, b2, b3, b4, b5, b6⟩
      · exact ⟨b1, b2, b3, b4, b5, b6⟩
    | other a i o hp hw hl =>
      obtain ⟨e1, e2⟩ := act (b := a) rfl
      obtain ⟨p1, p2⟩ := phase_next hp hw
      refine ⟨by rw [e2]; exact i1, by rw [e1, e2]; exact i2, i3, i4, ?_, by rw [e1]; exact fun b hb => i6 b (p2 b hb)⟩
      intro hpa
      rcases p1 hpa with h | ⟨h, f, rfl⟩
      · exact i5 h
      · simp only [step, h, Bool.true_and] at hs
        split at hs
        · cases hs
        · next hne => simpa using hne

/-- The deadline of the backend has passed once the timeout has, and the time it took to enter. -/
theorem Dl.passed {s l} (h : Dl s l) (hp : past s.i.phase = true) {T} (hT : timeoutOf (l.filterMap handT) = some T)
    (hrep : s.now ≤ windowsMaxNs) (hover : T + lag l ≤ spent (l.filterMap handT)) : ∃ d, s.dl2 = some d ∧ d ≤ s.now := by
  obtain ⟨i1, i2, i3, i4, i5, i6⟩ := h
  have hD := i2 T hT (by omega)
  obtain ⟨t2, a, b, c⟩ := i4 (i5 hp)
  rw [hD] at c
  simp only [Option.map_some, Option.bind_some] at c
  have hw : s.now - spent (l.filterMap handT) + T ≤ windowsMaxNs := by omega
  unfold instantCheckedAdd at c
  rw [since_win hw] at c
  rw [if_pos (by omega)] at c
  exact ⟨_, c, by omega⟩

/-- The steps of the thread inside `wait`, no call failing. -/
def Own : Act → Prop
  | .act (.wait none) | .act .get | .act (.decide _) => True
  | _ => False

/-- The thread inside `wait` gets by its own steps, in no time, to the return with `Ok`. -/
def Ends (n : Nat) (s : S) : Prop := ∀ l, ∃ acts s' l' m evs, runLog (step n) s acts l = some (s', l') ∧ (∀ a ∈ acts, Own a) ∧
  l'.head?.map (fun x => x.2.1) = some (some (.waitOk m evs)) ∧ s'.now = s.now ∧ s'.i.phase = .idle

theorem Ends.before {n s a s1 o} (h : step n s a = some (s1, o)) (ha : Own a) (hn : s1.now = s.now) (he : Ends n s1) : Ends n s := by
  intro l
  obtain ⟨acts, s', l', m, evs, h1, h2, h3, h4, h5⟩ := he ((a, o) :: l)
  refine ⟨a :: acts, s', l', m, evs, ?_, ?_, h3, by rw [h4, hn], h5⟩
  · simp only [runLog, h, Option.bind_some]; exact h1
  · intro x hx
    rcases List.mem_cons.1 hx with rfl | hx
    · exact ha
    · exact h2 x hx

theorem ends_fin {n} {s : S} {evs} (hph : s.i.phase = .fin evs) : Ends n s := by
  intro l
  have hs : step n s (.act (.wait none)) = some ({ s with i := { s.i with notified := false, phase := .idle } },
      (some (.waitOk (visible evs).length (visible evs)), false)) := by
    simp only [step, hph, atTop, Bool.false_and, Bool.false_eq_true, if_false, inner, IocpM.step, goWait, Option.map_some, after]
  refine ⟨[.act (.wait none)], { s with i := { s.i with notified := false, phase := .idle } },
    (.act (.wait none), (some (.waitOk (visible evs).length (visible evs)), false)) :: l, _, _, ?_, ?_, rfl, rfl, rfl⟩
  · simp only [runLog, hs, Option.bind_some]
  · intro a ha; rw [List.mem_singleton.1 ha]; trivial

/-- The loop is left when the time was over. -/
theorem ends_empty {n} {s : S} {w} (hph : s.i.phase = .feed w []) (ht : w.timed = true) (he : timeoutIsEmpty s = true) : Ends n s := by
  have hs : ∃ o, step n s (.act (.decide true)) = some ({ s with i := { s.i with phase := .fin w.evs } }, o) := by
    simp only [step, he, inner, IocpM.step, hph, ht, id]
    simp
  obtain ⟨o, hs⟩ := hs
  exact .before hs trivial rfl (ends_fin rfl)

/-- A `wait` in the backend, on its way, with a timeout that has passed. -/
structure Late (s : S) : Prop where
  past : past s.i.phase = true
  fine : s.i.phase.fine
  timed : ∀ b, timedOf s.i.phase = some b → b = true
  stage : s.stage = .set
  over : ∃ d, s.dl2 = some d ∧ d ≤ windowsMaxNs ∧ d ≤ s.now
  port : timeoutIsEmpty s = true ∨ ∀ w, s.i.phase ≠ .port w

theorem past_own {n tr a o} {s s' : IocpM.S} (hr : Reach n Any s tr) (hfine : s.phase.fine) (ha : IocpM.Own a) (hs : IocpM.step n s a = some (s', o)) :
    IocpC.past s'.phase = true ∨ ∃ evs, s.phase = .fin evs := by
  cases own_next hr hfine ha hs with
  | move _ _ _ hm =>
    left
    generalize s.phase = x, s'.phase = y at hm
    cases hm <;> rfl
  | pass _ _ _ _ hph' => obtain ⟨x, h⟩ := hph'; rw [h]; exact .inl rfl
  | custom _ _ _ _ hph' => rw [hph']; exact .inl rfl
  | event _ _ _ _ hph' => rw [hph']; exact .inl rfl
  | fin hph _ => exact .inr ⟨_, hph⟩

theorem lift_one {n tr a o i} {s : S} (hr : Reach n Any s.i tr) (hl : Late s) (ha : IocpM.Own a) (hs : IocpM.step n s.i a = some (i, o)) :
    Ends n s ∨ ∃ s' b, step n s (.act a) = some (s', (some o, b)) ∧ s'.i = i ∧ s'.now = s.now ∧ Late s' ∧
      (timeoutIsEmpty s = true → timeoutIsEmpty s' = true) := by
  have hfine := (own_next hr hl.fine ha hs).fine
  rcases (past_own hr hl.fine ha hs).symm with ⟨evs, hfin⟩ | hpast
  · exact .inl (ends_fin hfin)
  have htm : (∀ b cap, a ≠ .waitBegin b cap) → ∀ b, timedOf i.phase = some b → b = true :=
    fun hw b hb => hl.timed b ((phase_next hs hw).2 b hb)
  obtain ⟨d, hd, hd1, hd2⟩ := hl.over
  cases a with
  | wait fault =>
    cases fault with
    | some e => exact absurd ha id
    | none =>
      right
      have hnt : atTop s.i.phase = false := by
        have := hl.past
        cases hx : s.i.phase <;> first | rfl | (rw [hx] at this; cases this)
      refine ⟨IocpC.after { s with i }, false, ?_, after_i _, ?_, ?_, ?_⟩
      · simp only [step, hnt, Bool.false_and, Bool.false_eq_true, if_false, inner, hs, Option.map_some]
      · unfold IocpC.after; split <;> rfl
      · unfold IocpC.after
        split
        · next hx => dsimp only at hx; rw [hx] at hpast; cases hpast
        · next w hx =>
          refine ⟨hpast, hfine, htm (by intro b cap e; cases e), hl.stage, ⟨d, hd, hd1, hd2⟩, .inl ?_⟩
          simp only [timeoutIsEmpty, hd, Option.map_some, Duration.asSecs, Duration.subsecNanos, Bool.and_eq_true, beq_iff_eq]
          rw [since_win hd1]
          have : d - s.now = 0 := by omega
          rw [this]; exact ⟨rfl, rfl⟩
        · next h1 h2 => exact ⟨hpast, hfine, htm (by intro b cap e; cases e), hl.stage, ⟨d, hd, hd1, hd2⟩, .inr h2⟩
      · intro he
        unfold IocpC.after
        split
        · exact he
        · simp only [timeoutIsEmpty, hd, Option.map_some, Duration.asSecs, Duration.subsecNanos, Bool.and_eq_true, beq_iff_eq]
          rw [since_win hd1]
          have : d - s.now = 0 := by omega
          rw [this]; exact ⟨rfl, rfl⟩
        · exact he
  | get =>
    right
    have hpo : ∀ w, i.phase ≠ .port w := by
      simp only [IocpM.step] at hs
      split at hs
      · split at hs <;> cases hs
        exact nofun
      · cases hs
    refine ⟨{ s with i }, false, ?_, rfl, rfl, ?_, fun h => h⟩
    · simp only [step, inner, hs, Option.map_some, id]
    · exact ⟨hpast, hfine, htm (by intro b cap e; cases e), hl.stage, ⟨d, hd, hd1, hd2⟩, .inr hpo⟩
  | decide e =>
    cases e with
    | true => exact absurd ha id
    | false =>
      have hw : ∃ w, s.i.phase = .feed w [] ∧ ∀ w, i.phase ≠ .port w := by
        simp only [IocpM.step] at hs
        split at hs
        · next w hx =>
          refine ⟨w, hx, ?_⟩
          split at hs <;> (cases hs; exact nofun)
        · cases hs
      obtain ⟨w, hph, hpo⟩ := hw
      cases he : timeoutIsEmpty s with
      | true => exact .inl (ends_empty hph (hl.timed _ (by rw [hph]; rfl)) he)
      | false =>
        right
        refine ⟨{ s with i }, gaveUp s.i (.decide false), ?_, rfl, rfl, ?_, (by intro h; cases h)⟩
        · simp only [step, he, beq_self_eq_true, if_true, inner, hs, Option.map_some, id]
        · exact ⟨hpast, hfine, htm (by intro b cap e; cases e), hl.stage, ⟨d, hd, hd1, hd2⟩, .inr hpo⟩
  | _ => exact absurd ha id

/-- A run of the thread inside `wait`, with the clock: either it ends, or the run is possible. -/
theorem lift_solo {n obs i} : ∀ {i0 : IocpM.S} {s : S} {tr}, Solo n i0 obs i → s.i = i0 → Reach n Any i0 tr → Late s →
    Ends n s ∨ ∃ s', (Ends n s' → Ends n s) ∧ s'.i = i ∧ Late s' ∧ (timeoutIsEmpty s = true → timeoutIsEmpty s' = true) := by
  intro i0 s tr h
  induction h generalizing s tr with
  | refl i0 => intro e hr hl; exact .inr ⟨s, id, e, hl, id⟩
  | @step i0 a i1 o obs i2 ha hs hrest ih =>
    intro e hr hl
    subst e
    rcases lift_one hr hl ha hs with he | ⟨s1, b, h1, h2, h3, h4, h5⟩
    · exact .inl he
    · have hown : Own (.act a) := by
        cases a with
        | wait f => cases f <;> first | trivial | exact absurd ha id
        | get | decide => trivial
        | _ => exact absurd ha id
      have hbe : Ends n s1 → Ends n s := .before h1 hown h3
      rcases ih h2 (hr.step trivial hs) h4 with he | ⟨s', g1, g2, g3, g4⟩
      · exact .inl (hbe he)
      · exact .inr ⟨s', fun h => hbe (g1 h), g2, g3, fun h => g4 (h5 h)⟩

theorem Late.returns {n s tr} (hl : Late s) (hr : Reach n Any s.i tr) (h : Returns n s.i) : Ends n s := by
  obtain ⟨i, m, evs, obs, h1, h2, _⟩ := h
  rcases lift_solo h1 rfl hr hl with he | ⟨s', _, e, hl', _⟩
  · exact he
  · have := hl'.past
    rw [e, h2] at this; cases this

/-- `port.wait` returns. -/
theorem Late.get {n} {s : S} {w} (hph : s.i.phase = .port w) (ht : w.timed = true) :
    ∃ i o, IocpM.step n s.i .get = some (i, o) ∧ ∃ b, i.phase = .unpoll w b := by
  simp only [IocpM.step, hph]
  rw [if_pos (.inr ht)]
  exact ⟨_, _, rfl, _, rfl⟩

theorem solo_unpoll {n w b} {i : IocpM.S} (h : i.phase = .unpoll w b) : ∃ i' o, Solo n i [o] i' ∧ i'.phase = .feed w b := by
  have hs : IocpM.step n i (.wait none) = some ({ i with c := { i.c with polling := false }, phase := .feed w b }, .tau) := by
    simp only [IocpM.step, goWait, h]
  exact ⟨_, _, .one (a := .wait none) trivial hs, rfl⟩

/-- Having entered `port.wait` when the time was over, `wait` ends. -/
theorem ends_last {n s tr w} (hr : Reach n Any s.i tr) (hl : Late s) (hph : s.i.phase = .port w) (he : timeoutIsEmpty s = true) : Ends n s := by
  have ht : w.timed = true := hl.timed _ (by rw [hph]; rfl)
  obtain ⟨i1, o1, h1, b, p1⟩ := Late.get (n := n) hph ht
  obtain ⟨i2, o2, r2, p2⟩ := solo_unpoll (n := n) p1
  have r12 : Solo n s.i _ i2 := .step (a := .get) trivial h1 r2
  obtain ⟨i3, o3, w3, r3, p3, _, t3, _⟩ := solo_feed (r12.reach hr) p2
  rcases lift_solo (r12.trans r3) rfl hr hl with h | ⟨s', g1, g2, _, g4⟩
  · exact h
  · exact g1 (ends_empty (by rw [g2]; exact p3) (by rw [t3]; exact ht) (g4 he))

/-- From the processing of completions on. -/
theorem ends_feed {n s tr w b} (hr : Reach n Any s.i tr) (hl : Late s) (hph : s.i.phase = .feed w b) : Ends n s := by
  obtain ⟨i3, o3, w3, r3, p3, _⟩ := solo_feed hr hph
  rcases solo_decide (r3.reach hr) p3 with h | ⟨_, _, i4, o4, r4, p4, _⟩
  · exact hl.returns hr (.after r3 h)
  · rcases lift_solo (r3.trans r4) rfl hr hl with h | ⟨s', g1, g2, g3, _⟩
    · exact h
    · have p : s'.i.phase = .port { w3 with newEvents := 0 } := by rw [g2]; exact p4
      refine g1 (ends_last (by rw [g2]; exact (r3.trans r4).reach hr) g3 p ?_)
      exact g3.port.resolve_right fun h => h _ p

/-- From anywhere in the backend. -/
theorem ends_late {n s tr} (hr : Reach n Any s.i tr) (hl : Late s) : Ends n s := by
  have port : ∀ {i obs w}, Solo n s.i obs i → i.phase = .port w → Ends n s := by
    intro i obs w r p
    rcases lift_solo r rfl hr hl with h | ⟨s', g1, g2, g3, _⟩
    · exact h
    · have p : s'.i.phase = .port w := by rw [g2]; exact p
      refine g1 (ends_last (by rw [g2]; exact r.reach hr) g3 p ?_)
      exact g3.port.resolve_right fun h => h _ p
  have feed : ∀ {i obs w b}, Solo n s.i obs i → i.phase = .feed w b → Ends n s := by
    intro i obs w b r p
    rcases lift_solo r rfl hr hl with h | ⟨s', g1, g2, g3, _⟩
    · exact h
    · exact g1 (ends_feed (by rw [g2]; exact r.reach hr) g3 (by rw [g2]; exact p))
  have hp := hl.past
  have hf := hl.fine
  cases hph : s.i.phase with
  | idle => rw [hph] at hp; cases hp
  | top => rw [hph] at hp; cases hp
  | stuck => exact absurd hph (reach_not_stuck hr)
  | fail => rw [hph] at hf; exact absurd hf id
  | drain => rw [hph] at hf; exact absurd hf id
  | fin evs => exact ends_fin hph
  | start w => obtain ⟨i, o, r, _, p, _⟩ := solo_start hr hph; exact port r p
  | pop w => obtain ⟨i, o, r, _, p, _⟩ := solo_pop hr hph; exact port r p
  | upd w q =>
    obtain ⟨i, o, r, _, p, _⟩ := solo_upd hr hph
    obtain ⟨i2, o2, r2, _, p2, _⟩ := solo_pop (r.reach hr) p
    exact port (r.trans r2) p2
  | port w => exact port (.refl _) hph
  | unpoll w b => obtain ⟨i, o, r, p⟩ := solo_unpoll hph; exact feed r p
  | feed w b => exact ends_feed hr hl hph
  | feedUpd w b u ev => obtain ⟨i, o, r, p, _⟩ := solo_feedUpd hr hph; exact feed r p

/-- Whatever remained when `port.wait` was entered. -/
theorem ends_past {n P s l} (h : Runs (fun s => ∃ now, s = init now) (step n) P s l) (hp : past s.i.phase = true) (hf : s.i.phase.fine)
    {T} (hT : timeoutOf (l.filterMap handT) = some T) (hrep : s.now ≤ windowsMaxNs) (hover : T + lag l ≤ spent (l.filterMap handT)) : Ends n s := by
  obtain ⟨tr, hr⟩ := reach_inner h
  have hdl := reach_dl h
  obtain ⟨d, hd, hd1⟩ := hdl.passed hp hT hrep hover
  have htm : ∀ b, timedOf s.i.phase = some b → b = true := by
    intro b hb
    have := hdl.timed b hb
    rw [hT] at this; exact this.symm
  have hov : ∃ d, s.dl2 = some d ∧ d ≤ windowsMaxNs ∧ d ≤ s.now := ⟨d, hd, Nat.le_trans hd1 hrep, hd1⟩
  by_cases hpo : ∃ w, s.i.phase = .port w
  · obtain ⟨w, hph⟩ := hpo
    obtain ⟨i1, o1, h1, b, p1⟩ := Late.get (n := n) hph (htm _ (by rw [hph]; rfl))
    have hs : step n s (.act .get) = some ({ s with i := i1 }, (some o1, false)) := by
      simp only [step, inner, h1, Option.map_some, id]
    refine .before hs trivial rfl (ends_late (s := { s with i := i1 }) (hr.step trivial h1) ⟨?_, ?_, ?_, hdl.stage hp, hov, .inr ?_⟩)
    · dsimp only; rw [p1]; rfl
    · dsimp only; rw [p1]; trivial
    · intro c hc; dsimp only at hc; rw [p1] at hc; cases hc; exact htm _ (by rw [hph]; rfl)
    · intro w' hw'; dsimp only at hw'; rw [p1] at hw'; cases hw'
  · exact ends_late hr ⟨hp, hf, htm, hdl.stage hp, hov, .inr fun w hw => hpo ⟨w, hw⟩⟩

end Polling.IocpC
