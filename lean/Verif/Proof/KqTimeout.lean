import Verif.Proof.KqClock
import Verif.Proof.KqRun
import Verif.Proof.HandRun

/-! Once the timeout has passed, `kevent` can return and `wait` ends: kqueue. -/

namespace Polling.KqC
open KqM Kqueue KqSpec Spec

/-- The OS calls of the notifier succeed. -/
def Sound (s : S) : Act → Prop
  | .act t a => Works s.k t a
  | _ => True

/-- Runs in which they do, with what was done and observed, newest first. -/
inductive Reach (c : Cfg) : S → List (Act × Obs) → Prop
  | init (cond now) : Reach c (init c cond now) []
  | step {s l a s' o} : Reach c s l → Sound s a → step c s a = some (s', o) → Reach c s' ((a, o) :: l)

theorem reach_inner {c s l} (h : Reach c s l) : ∃ tr, KqM.Reach c Works s.k tr := by
  induction h with
  | init cond now => exact ⟨[], .init cond⟩
  | @step s l a s' o _ hw hs ih =>
    obtain ⟨tr, ih⟩ := ih
    cases step_kind hs with
    | tick | remaining => exact ⟨tr, ih⟩
    | wait t timeout cap k u h => exact ⟨_, .step ih (by unfold Works; split <;> first | trivial | (next e => cases e)) h⟩
    | busy t timeout cap k o h _ => exact ⟨_, .step ih (by unfold Works; split <;> first | trivial | (next e => cases e)) h⟩
    | other t a k o fr h => exact ⟨_, .step ih hw h⟩

/-- The remaining time is not computed behind the loop's back. -/
theorem fresh_act {c s t a s' o} (h : step c s (.act t a) = some (s', o)) (hf : s'.fresh = true) : s.fresh = true := by
  cases a
  case wait => cases h
  case kevent =>
    simp only [step] at h
    split at h
    · cases h
    · obtain ⟨k, o, h1, h2⟩ := inner_eq h; cases h2; exact hf
  case kfail e =>
    simp only [step] at h
    obtain ⟨k, o, h1, h2⟩ := inner_eq h; cases h2
    simp only [Bool.and_eq_true] at hf
    exact hf.1
  case eval =>
    simp only [step] at h
    obtain ⟨k, o, h1, h2⟩ := inner_eq h; cases h2
    simp only [Bool.and_eq_true] at hf
    exact hf.1
  all_goals
    simp only [step] at h
    obtain ⟨k, o, h1, h2⟩ := inner_eq h; cases h2; exact hf

/-- The deadlines, against what was seen since the latest `wait` began. -/
structure Dl (s : S) (l : List HandT) : Prop where
  sp : spent l ≤ s.now
  dl : ∀ T, timeoutOf l = some T → s.now - spent l + T ≤ unixMaxNs → s.dl = some (s.now - spent l + T)
  rem : s.fresh = true → s.since ≤ s.now ∧ s.rem = s.dl.map fun d => saturatingSince d s.since
  timed : ∀ t b, timedOf (s.k.pc t) = some b → (timeoutOf l).isSome = b

theorem Dl.see {s l e} (h : Dl s l) (h1 : timeoutOf (e :: l) = timeoutOf l) (h2 : spent (e :: l) = spent l) : Dl s (e :: l) := by
  obtain ⟨a, b, c, d⟩ := h
  exact ⟨by rw [h2]; exact a, by rw [h1, h2]; exact b, c, by rw [h1]; exact d⟩

theorem timed_next {c s s' t a o} (hn : KqM.Next c s t a s' o) (hw : ∀ b cap, a ≠ .wait b cap) :
    ∀ u b, timedOf (s'.pc u) = some b → timedOf (s.pc u) = some b := by
  intro u b hu
  have move : ∀ {p0 p1 : Pc}, s.pc t = p0 → timedOf (upd s.pc t p1 u) = some b → (∀ b, timedOf p1 = some b → timedOf p0 = some b) →
      timedOf (s.pc u) = some b := by
    intro p0 p1 h0 h1 h2
    by_cases e : u = t
    · subst e; rw [upd_self] at h1; rw [h0]; exact h2 b h1
    · rwa [upd_other _ e] at h1
  have no : ∀ {p1 p0 : Pc}, timedOf p1 = none → ∀ b, timedOf p1 = some b → timedOf p0 = some b := by
    intro p1 p0 e b h; rw [e] at h; cases h
  cases hn with
  | reject | panic0 | kevRetry | casSeen | waitBusy | raise | fall => exact hu
  | @begin call hp0 => exact move hp0 hu (no (by cases call <;> rfl))
  | dup hp0 => exact move hp0 hu (no rfl)
  | inserted hp0 => exact move hp0 hu (no rfl)
  | missing hp0 => rcases hp0 with hp0 | hp0 <;> exact move hp0 hu (no rfl)
  | panic hp0 => exact move hp0 hu (no rfl)
  | has hp0 => exact move hp0 hu (no rfl)
  | removed hp0 => exact move hp0 hu (no rfl)
  | ended hp0 => exact move hp0 hu (no rfl)
  | wMissing hp0 => exact move hp0 hu (no rfl)
  | wHas hp0 => exact move hp0 hu fun _ h => h
  | @change fault w ev todo done errno k hp0 => exact move hp0 hu (by cases w <;> exact fun _ h => h)
  | finCall hf => obtain ⟨_, _, hp0⟩ := hf.pc; exact move hp0 hu (no rfl)
  | finDelete hf => obtain ⟨_, _, hp0⟩ := hf.pc; exact move hp0 hu (no rfl)
  | finNotify hf => obtain ⟨_, _, hp0⟩ := hf.pc; exact move hp0 hu (no rfl)
  | finRearm hf => obtain ⟨_, _, hp0⟩ := hf.pc; exact move hp0 hu (no rfl)
  | rearmRetry hf => obtain ⟨_, _, hp0⟩ := hf.pc; exact move hp0 hu fun _ h => h
  | rearmErr hf => obtain ⟨_, _, hp0⟩ := hf.pc; exact move hp0 hu (no rfl)
  | kevErr hp0 => exact move hp0 hu (no rfl)
  | casUser hp0 => exact move hp0 hu (no rfl)
  | casPair hp0 => exact move hp0 hu (no rfl)
  | writeFail hp0 => exact move hp0 hu (no rfl)
  | write hp0 => exact move hp0 hu (no rfl)
  | @waitBegin timed cap => exact absurd rfl (hw timed cap)
  | @kevent timed cap evs k hp0 =>
    refine move hp0 hu ?_
    cases c.user with
    | true => exact no rfl
    | false => exact fun _ h => h
  | read => exact hu
  | readEnd hp0 => exact move hp0 hu fun _ h => h
  | finish hp0 => exact move hp0 hu (no rfl)

theorem reach_dl {c s l} (h : Reach c s l) : Dl s (l.filterMap handT) := by
  induction h with
  | init cond now =>
    refine ⟨Nat.zero_le _, (by intro T h; cases h), (by intro h; cases h), ?_⟩
    intro t b hb
    have : (KqM.init c cond).pc t = .out := by unfold KqM.init; split <;> rfl
    have e : (init c cond now).k.pc t = .out := this
    rw [e] at hb; cases hb
  | @step s l a s' o hr hw hs ih =>
    obtain ⟨tr, hri⟩ := reach_inner hr
    have eT : ((a, o) :: l).filterMap handT = (handT (a, o)).toList ++ l.filterMap handT := by
      rw [List.filterMap_cons]; cases handT (a, o) <;> rfl
    rw [eT]
    obtain ⟨i1, i2, i3, i4⟩ := ih
    cases step_kind hs with
    | tick dt =>
      have e : spent (.pass dt :: l.filterMap handT) = spent (l.filterMap handT) + dt := rfl
      have es : s.now + dt - spent (.pass dt :: l.filterMap handT) = s.now - spent (l.filterMap handT) := by rw [e]; omega
      refine ⟨?_, ?_, ?_, i4⟩
      · show spent (.pass dt :: l.filterMap handT) ≤ s.now + dt
        rw [e]; omega
      · intro T hT
        show s.now + dt - spent (.pass dt :: l.filterMap handT) + T ≤ unixMaxNs → s.dl = some (s.now + dt - spent (.pass dt :: l.filterMap handT) + T)
        rw [es]; exact i2 T hT
      · intro hf
        obtain ⟨a, b⟩ := i3 hf
        exact ⟨Nat.le_trans a (Nat.le_add_right _ _), b⟩
    | remaining => exact ⟨i1, i2, fun _ => ⟨Nat.le_refl _, rfl⟩, i4⟩
    | wait t timeout cap k u hp =>
      obtain ⟨ht, hn⟩ := step_next hp
      refine ⟨Nat.zero_le _, ?_, (by intro h; cases h), ?_⟩
      · intro T hT
        cases timeout with
        | none => cases hT
        | some T' =>
          cases hT
          intro hle
          show instantCheckedAdd unixMaxNs s.now T' = some (s.now - 0 + T'.ns)
          have hle : s.now + T'.ns ≤ unixMaxNs := hle
          unfold instantCheckedAdd
          rw [if_pos hle]; rfl
      · intro v b hv
        have hlib := reach_lib hri
        generalize ha : KqM.Act.wait timeout.isSome cap = a at hn
        generalize ho : KObs.waitBegin u = o at hn
        cases hn with
        | @waitBegin timed cap hp0 hl hc =>
          cases ha
          show (timeout.map Duration.ns).isSome = b
          rw [Option.isSome_map]
          by_cases e : v = t
          · subst e
            dsimp only at hv
            rw [upd_self] at hv
            cases hv; rfl
          · dsimp only at hv
            rw [upd_other _ e] at hv
            have := (hlib v).2 (timedOf_inWait hv)
            rw [hl] at this; cases this
        | finCall | finDelete | finRearm | rearmRetry => cases ho
        | change => unfold changeObs at ho; split at ho <;> first | cases ho | (split at ho <;> cases ho)
        | _ => first | cases ho | cases ha
    | busy t timeout cap k o hp ho =>
      obtain ⟨ht, hn⟩ := step_next hp
      have hn' : (∃ u, o = .waitBegin u) ∨ (s.k = k ∧ ∃ u, o = .waitBusy u) := by
        generalize ha : KqM.Act.wait timeout.isSome cap = a at hn
        cases hn <;> first | exact .inr ⟨rfl, _, rfl⟩ | exact .inl ⟨_, rfl⟩ | (cases ha; done) | (exfalso; rename_i hf; rcases hf.act with e | ⟨_, e⟩ <;> (rw [e] at ha; cases ha))
      rcases hn' with ⟨u, e⟩ | ⟨rfl, u, rfl⟩
      · exact absurd e (ho u)
      · exact ⟨i1, i2, i3, i4⟩
    | other t a k o fr hp hwa hl =>
      obtain ⟨ht, hn⟩ := step_next hp
      have d : Dl { s with k, fresh := fr } (l.filterMap handT) :=
        ⟨i1, i2, fun hf => i3 (fresh_act hs hf), fun v b hv => i4 v b (timed_next hn hwa v b hv)⟩
      cases hT : handT (.act t a, (some o, lapsing c s.k t a)) with
      | none => exact d
      | some e =>
        rcases handT_act hT with rfl | ⟨n, rfl⟩
        · exact d.see rfl rfl
        · exact d.see rfl rfl

/-- A run of steps that are not about the clock. -/
theorem lift_run {c} : ∀ (acts : List (Tid × KqM.Act)) {s : S} {k obs l},
    (∀ x ∈ acts, (∀ b cap, x.2 ≠ .wait b cap) ∧ x.2 ≠ .kevent) → runActs c s.k acts = some (k, obs) →
    ∃ s' l', runLog (step c) s (acts.map fun x => .act x.1 x.2) l = some (s', l') ∧ s'.k = k ∧ s'.now = s.now ∧
      l'.map (fun x => x.2.1) = obs.map some ++ l.map fun x => x.2.1 := by
  intro acts
  induction acts with
  | nil => intro s k obs l _ h; cases h; exact ⟨s, l, rfl, rfl, rfl, rfl⟩
  | cons x acts ih =>
    intro s k obs l hx h
    obtain ⟨t, a⟩ := x
    simp only [runActs, Option.bind_eq_some_iff, Option.map_eq_some_iff] at h
    obtain ⟨⟨k1, o1⟩, h1, ⟨k2, obs2⟩, h2, h3⟩ := h
    cases h3
    have hne := hx (t, a) (by simp)
    have hst : ∃ s1, step c s (.act t a) = some (s1, (some o1, false)) ∧ s1.k = k1 ∧ s1.now = s.now := by
      cases a
      case wait b cap => exact absurd rfl (hne.1 b cap)
      case kevent => exact absurd rfl hne.2
      all_goals
        simp only [step, inner, h1, Option.map_some]
        exact ⟨_, rfl, rfl, rfl⟩
    obtain ⟨s1, hs1, hk1, hn1⟩ := hst
    obtain ⟨s', l', e1, e2, e3, e4⟩ := ih (s := s1) (l := (.act t a, (some o1, false)) :: l) (fun y hy => hx y (by simp [hy])) (by rw [hk1]; exact h2)
    refine ⟨s', l', ?_, e2, by rw [e3, hn1], ?_⟩
    · simp only [List.map_cons, runLog, hs1, Option.bind_some]; exact e1
    · rw [e4]; simp

instance (s : KqM.S) (t : Tid) (a : KqM.Act) : Decidable (Works s t a) := by unfold Works; split <;> infer_instance
instance (s : S) (a : Act) : Decidable (Sound s a) := by unfold Sound; split <;> infer_instance

/-- A step in which the notifier's calls succeed. -/
def soundStep (c : Cfg) (s : S) (a : Act) : Option (S × Obs) := if Sound s a then step c s a else none

theorem reach_log {c} : ∀ {as : List Act} {s s' l l'}, Reach c s l → runLog (soundStep c) s as l = some (s', l') → Reach c s' l' := by
  intro as
  induction as with
  | nil => intro s s' l l' h hr; cases hr; exact h
  | cons a as ih =>
    intro s s' l l' h hr
    simp only [runLog, Option.bind_eq_some_iff] at hr
    obtain ⟨r, h1, h2⟩ := hr
    unfold soundStep at h1
    split at h1
    · next hw => exact ih (.step h hw h1) h2
    · cases h1

end Polling.KqC
