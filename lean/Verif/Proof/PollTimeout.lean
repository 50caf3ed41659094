import Verif.Proof.PollClock
import Verif.Proof.HandRun
import Verif.Props.C05Poll

/-! Once the timeout has passed, `poll()` can return: poll. -/

namespace Polling.PollC
open PollB PollP PollFlags PollSpec Spec

/-- The time since `Poller::wait` computed what is left. -/
def sinceLeft : List (Act × Obs) → Nat
  | [] => 0
  | (.remaining, _) :: _ => 0
  | (.tick dt, _) :: l => sinceLeft l + dt
  | _ :: l => sinceLeft l

/-- The time that the latest entry into the backend took from there to its own deadline. -/
def lag : List (Act × Obs) → Nat
  | [] => 0
  | (.deadline, _) :: l => sinceLeft l
  | _ :: l => lag l

/-- In the backend. -/
def past : Pc → Bool
  | .wSwap _ | .wPop _ | .wLoad _ | .wPark _ | .wSleep _ | .wRelock _ | .wPoll _ | .wPopAll _ _ | .wSwap2 _ _ | .wUnlock _ _ | .wFinish _ _ => true
  | _ => false

theorem past_next {c s s' t a o} (hn : PollP.Next c s t a s' o) (u : Tid) (h : past (s'.pc u) = true) :
    past (s.pc u) = true ∨ a = .waitLock := by
  by_cases e : u = t
  · subst e
    cases hn <;> first | exact .inr rfl | (left; simp_all [past, PollP.upd, wake]; done)
  · left
    rcases next_other hn e with h1 | ⟨b, h1, _⟩
    · rw [← h1]; exact h
    · rw [h1]; rfl

theorem poll_next {c s s' t a o} (hn : PollP.Next c s t a s' o) (u : Tid) (b : Bool) (h : s'.pc u = .wPoll b) :
    s.pc u = .wPoll b ∨ a = .waitLoad := by
  by_cases e : u = t
  · subst e
    cases hn <;> first | exact .inr rfl | (left; simp_all [PollP.upd, wake]; done)
  · left
    rcases next_other hn e with h1 | ⟨b', _, h1⟩
    · rw [← h1]; exact h
    · rw [h1] at h; cases h

theorem timed_next {c s s' t a o} (hn : PollP.Next c s t a s' o) (u : Tid) (b : Bool) (h : timedOf (s'.pc u) = some b) :
    timedOf (s.pc u) = some b ∨ (u = t ∧ a = .waitBegin b) := by
  by_cases e : u = t
  · subst e
    cases hn <;> simp_all [timedOf, PollP.upd, wake]
  · left
    rcases next_other hn e with h1 | ⟨b', h1, h2⟩
    · rw [← h1]; exact h
    · rw [h2] at h; rw [h1]; exact h

theorem finish_next {c s s' t a o} (hI : I c s) (hn : PollP.Next c s t a s' o) (ha : a = .waitFinish) (u : Tid) : past (s'.pc u) = false := by
  subst ha
  have ht : inWait (s.pc t) = true := by cases hn <;> simp_all [inWait]
  by_cases e : u = t
  · subst e; cases hn <;> simp_all [past, PollP.upd]
  · cases hx : past (s'.pc u) with
    | false => rfl
    | true =>
      exfalso
      have hu : inWait (s.pc u) = true := by
        rcases next_other hn e with h1 | ⟨b, h1, _⟩
        · rw [h1] at hx; revert hx; cases s.pc u <;> simp [past, inWait]
        · rw [h1]; rfl
      exact e (waiter_unique hI hu ht)

theorem stage_act {c s t a s' o} (h : step c s (.act t a) = some (s', o)) : (s'.stage = s.stage ∨ a = .waitFinish) ∧ (a = .waitLock → s.stage = .set) := by
  cases a
  case waitBegin => cases h
  case waitLock =>
    simp only [step] at h
    split at h
    · next hs => obtain ⟨p, o, h1, h2⟩ := inner_eq h; cases h2; exact ⟨.inl rfl, fun _ => hs⟩
    · cases h
  case waitPoll os =>
    simp only [step] at h
    split at h
    · cases h
    · obtain ⟨p, o, h1, h2⟩ := inner_eq h; cases h2; exact ⟨.inl rfl, nofun⟩
  case waitFinish => exact ⟨.inr rfl, nofun⟩
  all_goals
    simp only [step] at h
    obtain ⟨p, o, h1, h2⟩ := inner_eq h; cases h2; exact ⟨.inl rfl, nofun⟩

/-- The deadlines, against what was seen since the latest `wait` began, and the time lost on the way. -/
structure Dl (s : S) (l : List (Act × Obs)) : Prop where
  sp : spent (l.filterMap handT) ≤ s.now
  dl : ∀ T, timeoutOf (l.filterMap handT) = some T → s.now - spent (l.filterMap handT) + T ≤ unixMaxNs →
    s.dl = some (s.now - spent (l.filterMap handT) + T)
  sl : sinceLeft l ≤ s.now
  rem : s.stage = .left → s.rem = s.dl.map fun d => saturatingSince d (s.now - sinceLeft l)
  dl2 : s.stage = .set → ∀ D, s.dl = some D → D + lag l ≤ unixMaxNs → s.now ≤ unixMaxNs →
    ∃ d2, s.dl2 = some d2 ∧ d2 ≤ unixMaxNs ∧ (d2 ≤ D + lag l ∨ d2 ≤ s.now)
  past : ∀ u, past (s.p.pc u) = true → s.stage = .set
  ms : ∀ u b, s.p.pc u = .wPoll b → ∀ D, s.dl = some D → D + lag l ≤ unixMaxNs → s.now ≤ unixMaxNs →
    0 ≤ s.ms ∧ (s.since + s.ms.toNat * 1000000 ≤ D + lag l + 999999 ∨ s.since + s.ms.toNat * 1000000 ≤ s.now)
  timed : ∀ u b, timedOf (s.p.pc u) = some b → (timeoutOf (l.filterMap handT)).isSome = b

theorem pollMs_before {d now : Nat} (hd : d ≤ unixMaxNs) :
    0 ≤ pollTimeoutMs (some (saturatingSince d now)) ∧
    (now + (pollTimeoutMs (some (saturatingSince d now))).toNat * 1000000 ≤ d + 999999 ∨
      now + (pollTimeoutMs (some (saturatingSince d now))).toNat * 1000000 ≤ now) ∧
    (d ≤ now → now + (pollTimeoutMs (some (saturatingSince d now))).toNat * 1000000 ≤ now) := by
  rw [pollMs_eq, EpollM.since_ns hd, Int.toNat_natCast]
  omega

theorem cons_hand (x : Act × Obs) (l : List (Act × Obs)) : (x :: l).filterMap handT = (handT x).toList ++ l.filterMap handT := by
  rw [List.filterMap_cons]; cases handT x <;> rfl

theorem hand_act {t a o b} (l : List (Act × Obs)) : timeoutOf (((.act t a, (o, b)) :: l).filterMap handT) = timeoutOf (l.filterMap handT) ∧
    spent (((.act t a, (o, b)) :: l).filterMap handT) = spent (l.filterMap handT) := by
  rw [cons_hand]
  cases hT : handT (.act t a, (o, b)) with
  | none => exact ⟨rfl, rfl⟩
  | some e =>
    unfold handT at hT
    split at hT
    · next h1 => cases h1
    · next h1 => cases h1
    · cases hT; exact ⟨rfl, rfl⟩
    · cases hT; exact ⟨rfl, rfl⟩
    · cases hT

theorem reach_dl {c P s l} (h : Runs (fun s => ∃ now, s = init c now) (step c) P s l) : Dl s l := by
  induction h with
  | init hi =>
    obtain ⟨now, rfl⟩ := hi
    exact ⟨Nat.zero_le _, nofun, Nat.zero_le _, nofun, nofun, nofun, nofun, nofun⟩
  | @step s l a s' o hr _ hs ih =>
    obtain ⟨tr, hri⟩ := reach_inner hr
    have hI := reach_I hri
    obtain ⟨i1, i2, i3, i4, i5, i6, i7, i8⟩ := ih
    cases step_kind hs with
    | tick dt =>
      have e0 : ((Act.tick dt, ((none, false) : Obs)) :: l).filterMap handT = .pass dt :: l.filterMap handT := rfl
      have e : spent (.pass dt :: l.filterMap handT) = spent (l.filterMap handT) + dt := rfl
      have es : s.now + dt - (spent (l.filterMap handT) + dt) = s.now - spent (l.filterMap handT) := by omega
      have el : sinceLeft ((Act.tick dt, ((none, false) : Obs)) :: l) = sinceLeft l + dt := rfl
      refine ⟨?_, ?_, ?_, ?_, ?_, i6, ?_, i8⟩
      · rw [e0, e]; show _ ≤ s.now + dt; omega
      · intro T hT
        rw [e0, e]
        show s.now + dt - (spent (l.filterMap handT) + dt) + T ≤ unixMaxNs → s.dl = some (s.now + dt - (spent (l.filterMap handT) + dt) + T)
        rw [es]; exact i2 T hT
      · rw [el]; show _ ≤ s.now + dt; omega
      · intro hst
        rw [el]
        show s.rem = s.dl.map fun d => saturatingSince d (s.now + dt - (sinceLeft l + dt))
        have : s.now + dt - (sinceLeft l + dt) = s.now - sinceLeft l := by omega
        rw [this]; exact i4 hst
      · intro hst D hD h1 h2
        have h2 : s.now + dt ≤ unixMaxNs := h2
        obtain ⟨d2, a, b, d⟩ := i5 hst D hD h1 (by omega)
        refine ⟨d2, a, b, d.imp id fun h => ?_⟩
        show d2 ≤ s.now + dt
        omega
      · intro u b hu D hD h1 h2
        have h2 : s.now + dt ≤ unixMaxNs := h2
        obtain ⟨a, d⟩ := i7 u b hu D hD h1 (by omega)
        refine ⟨a, d.imp id fun h => ?_⟩
        show s.since + s.ms.toNat * 1000000 ≤ s.now + dt
        omega
    | wait t timeout p o hp =>
      obtain ⟨ht, hn⟩ := step_next hp
      have nobody : ∀ u b, timedOf (p.pc u) = some b → p.pc u = .wLock b ∧ timeout.isSome = b := by
        intro u b hu
        generalize ha : PollP.Act.waitBegin timeout.isSome = a at hn
        cases hn <;> first | (cases ha; done) | skip
        rename_i b' h0 hl
        cases ha
        dsimp only at hu ⊢
        by_cases e : u = t
        · subst e; rw [upd_self] at hu ⊢; cases hu; exact ⟨rfl, rfl⟩
        · rw [upd_ne _ _ e] at hu
          have hw : inWait (s.p.pc u) = true := by revert hu; cases s.p.pc u <;> simp [timedOf, inWait]
          have := (hI.lib u).1 hw
          rw [hl] at this; cases this
      have ho : ∃ u, o = .waitBegin u := by
        generalize ha : PollP.Act.waitBegin timeout.isSome = a at hn
        cases hn <;> first | (cases ha; done) | exact ⟨_, rfl⟩
      obtain ⟨u, rfl⟩ := ho
      have e0 : ((Act.wait t timeout, ((some (.waitBegin u), false) : Obs)) :: l).filterMap handT = .wait (timeout.map Duration.ns) :: l.filterMap handT := rfl
      refine ⟨Nat.zero_le _, ?_, i3, nofun, nofun, ?_, ?_, ?_⟩
      · intro T hT
        rw [e0] at hT ⊢
        cases timeout with
        | none => cases hT
        | some T' =>
          cases hT
          intro hle
          have hle : s.now + T'.ns ≤ unixMaxNs := hle
          show instantCheckedAdd unixMaxNs s.now T' = some (s.now - 0 + T'.ns)
          unfold instantCheckedAdd
          rw [if_pos hle]; rfl
      · intro v hv
        have : ∃ b, timedOf (p.pc v) = some b := by
          revert hv; show PollC.past (p.pc v) = true → _
          cases p.pc v <;> simp [PollC.past, timedOf]
        obtain ⟨b, hb⟩ := this
        have := (nobody v b hb).1
        have hv : PollC.past (p.pc v) = true := hv
        rw [this] at hv; cases hv
      · intro v b hv
        have hv : p.pc v = .wPoll b := hv
        have := (nobody v b (by rw [hv]; rfl)).1
        rw [hv] at this; cases this
      · intro v b hv
        rw [e0]
        show (timeout.map Duration.ns).isSome = b
        rw [Option.isSome_map]
        exact (nobody v b hv).2
    | remaining =>
      have hst : s.stage = .top := by
        simp only [step] at hs
        split at hs
        · assumption
        · cases hs
      have np : ∀ u, PollC.past (s.p.pc u) ≠ true := by
        intro u hu; have := i6 u hu; rw [hst] at this; cases this
      refine ⟨i1, i2, Nat.zero_le _, fun _ => rfl, nofun, fun u hu => absurd hu (np u), fun u b hu => ?_, i8⟩
      exact absurd (by have hu : s.p.pc u = .wPoll b := hu; rw [hu]; rfl) (np u)
    | deadline =>
      have hst : s.stage = .left := by
        simp only [step] at hs
        split at hs
        · assumption
        · cases hs
      have np : ∀ u, PollC.past (s.p.pc u) ≠ true := by
        intro u hu; have := i6 u hu; rw [hst] at this; cases this
      refine ⟨i1, i2, i3, nofun, fun _ D hD h1 h2 => ?_, fun _ _ => rfl, fun u b hu => ?_, i8⟩
      · have hD : s.dl = some D := hD
        have h1 : D + sinceLeft l ≤ unixMaxNs := h1
        have h2 : s.now ≤ unixMaxNs := h2
        have hr := i4 hst
        rw [hD] at hr
        have hns := EpollM.since_ns (t := s.now - sinceLeft l) (show D ≤ unixMaxNs by omega)
        have hle : s.now + (saturatingSince D (s.now - sinceLeft l)).ns ≤ unixMaxNs := by rw [hns]; omega
        refine ⟨s.now + (saturatingSince D (s.now - sinceLeft l)).ns, ?_, hle, ?_⟩
        · show s.rem.bind (instantCheckedAdd unixMaxNs s.now) = _
          rw [hr]
          simp only [Option.map_some, Option.bind_some, instantCheckedAdd]
          rw [if_pos hle]
        · show _ ≤ D + sinceLeft l ∨ _ ≤ s.now
          rw [hns]; omega
      · exact absurd (by have hu : s.p.pc u = .wPoll b := hu; rw [hu]; rfl) (np u)
    | load t p o hp =>
      obtain ⟨ht, hn⟩ := step_next hp
      obtain ⟨e1, e2⟩ := hand_act (t := t) (a := .waitLoad) (o := some o) (b := false) l
      have hload : ∃ b, s.p.pc t = .wLoad b := by
        generalize ha : PollP.Act.waitLoad = a at hn
        cases hn <;> first | (cases ha; done) | exact ⟨_, by assumption⟩
      obtain ⟨b0, hb0⟩ := hload
      have hset := i6 t (by rw [hb0]; rfl)
      refine ⟨by rw [e2]; exact i1, by rw [e1, e2]; exact i2, i3, i4, i5, ?_, ?_, ?_⟩
      · intro u hu; exact hset
      · intro u b hu D hD h1 h2
        obtain ⟨d2, hd2, hm, hor⟩ := i5 hset D hD h1 h2
        have := pollMs_before (now := s.now) hm
        have et' : timeoutMs s = pollTimeoutMs (some (saturatingSince d2 s.now)) := by
          show pollTimeoutMs (s.dl2.map fun d => saturatingSince d s.now) = _
          rw [hd2]; rfl
        dsimp only
        rw [et']
        refine ⟨this.1, ?_⟩
        have hl : lag ((Act.act t .waitLoad, ((some o, false) : Obs)) :: l) = lag l := rfl
        rw [hl]
        rcases hor with hor | hor
        · rcases this.2.1 with h3 | h3
          · exact .inl (Nat.le_trans h3 (Nat.add_le_add_right hor _))
          · exact .inr h3
        · exact .inr (this.2.2 hor)
      · intro u b hu
        rw [e1]
        rcases timed_next hn u b hu with h1 | ⟨_, h1⟩
        · exact i8 u b h1
        · cases h1
    | other t a p o st hp hw hl hnl =>
      obtain ⟨ht, hn⟩ := step_next hp
      obtain ⟨e1, e2⟩ := hand_act (t := t) (a := a) (o := some o) (b := lapsing s.p a) l
      obtain ⟨hst, hlock⟩ := stage_act hs
      have hl' : lag ((Act.act t a, ((some o, lapsing s.p a) : Obs)) :: l) = lag l := rfl
      have hsl : sinceLeft ((Act.act t a, ((some o, lapsing s.p a) : Obs)) :: l) = sinceLeft l := rfl
      have keep : ∀ {x}, x ≠ Stage.top → st = x → s.stage = x := by
        intro x hx e
        subst e
        rcases hst with h1 | h1
        · exact h1.symm
        · exfalso
          subst h1
          simp only [step] at hs
          obtain ⟨p', o', h1, h2⟩ := inner_eq hs
          cases h2
          exact hx rfl
      refine ⟨by rw [e2]; exact i1, by rw [e1, e2]; exact i2, i3, fun h => i4 (keep (by decide) h), fun h => i5 (keep (by decide) h), ?_, ?_, ?_⟩
      · intro u hu
        rcases hst with h1 | h1
        · rcases past_next hn u hu with h2 | h2
          · exact h1.trans (i6 u h2)
          · exact h1.trans (hlock h2)
        · have := finish_next hI hn h1 u
          have hu : PollC.past (p.pc u) = true := hu
          rw [this] at hu; cases hu
      · intro u b hu
        rcases poll_next hn u b hu with h1 | h1
        · exact i7 u b h1
        · exact absurd h1 hnl
      · intro u b hu
        rw [e1]
        rcases timed_next hn u b hu with h1 | ⟨_, h1⟩
        · exact i8 u b h1
        · exact absurd h1 (hw b)


/-- A run of steps that the clock does not hold up. -/
theorem lift_run {c} : ∀ (acts : List (Tid × PollP.Act)) {s : S} {p obs l},
    (∀ x ∈ acts, (∀ b, x.2 ≠ .waitBegin b) ∧ x.2 ≠ .waitLock ∧ ∀ os, x.2 ≠ .waitPoll os) → runActs c s.p acts = some (p, obs) →
    ∃ s' l', runLog (step c) s (acts.map fun x => .act x.1 x.2) l = some (s', l') ∧ s'.p = p ∧ s'.now = s.now ∧
      l'.map (fun x => x.2.1) = obs.map some ++ l.map fun x => x.2.1 := by
  intro acts
  induction acts with
  | nil => intro s k obs l _ h; cases h; exact ⟨s, l, rfl, rfl, rfl, rfl⟩
  | cons x acts ih =>
    intro s k obs l hx h
    obtain ⟨t, a⟩ := x
    simp only [runActs, Option.bind_eq_some_iff, Option.map_eq_some_iff] at h
    obtain ⟨⟨k1, o1⟩, h1, ⟨k2, obs2⟩, h2, h3⟩ := h
    cases h3
    have hne := hx (t, a) (by simp)
    have hst : ∃ s1, step c s (.act t a) = some (s1, (some o1, false)) ∧ s1.p = k1 ∧ s1.now = s.now := by
      cases a
      case waitBegin b => exact absurd rfl (hne.1 b)
      case waitLock => exact absurd rfl hne.2.1
      case waitPoll os => exact absurd rfl (hne.2.2 os)
      all_goals
        simp only [step, inner, h1, Option.map_some]
        exact ⟨_, rfl, rfl, rfl⟩
    obtain ⟨s1, hs1, hk1, hn1⟩ := hst
    obtain ⟨s', l', e1, e2, e3, e4⟩ := ih (s := s1) (l := (.act t a, (some o1, false)) :: l) (fun y hy => hx y (by simp [hy])) (by rw [hk1]; exact h2)
    refine ⟨s', l', ?_, e2, by rw [e3, hn1], ?_⟩
    · simp only [List.map_cons, runLog, hs1, Option.bind_some]; exact e1
    · rw [e4]; simp

end Polling.PollC

namespace Polling.C05
open PollP PollB PollFlags PollSpec

/-- A `wait` with a timeout in `poll()` comes to its end by its own steps, unless there is nothing but a byte of a registration call. -/
theorem timed_wait_returns {c P s tr t} (hr : Reach c P s tr) (hp : s.pc t = .wPoll true) (os : Fd → Flags → Flags)
    (hos : decide (os c.n.readFd c.n.flags ≠ 0#16) = decide (s.chan > 0))
    (hfree : s.chan = 0 ∨ s.notified = true ∨ 1 < (osPoll os s.tbl.pollFds).2) :
    ∃ s1 acts s' obs n evs, step c s t (.waitPoll os) = some (s1, .tau) ∧
      (∀ x ∈ acts, x.1 = t ∧ (∀ b, x.2 ≠ .waitBegin b) ∧ x.2 ≠ .waitLock ∧ ∀ os, x.2 ≠ .waitPoll os) ∧
      runActs c s1 acts = some (s', .waitOk t n evs :: obs) ∧ s'.pc t = .out := by
  have hI := reach_I hr
  have hT := reach_T hr
  have ht : t < c.threads := by
    by_cases h : t < c.threads
    · exact h
    · have := hI.range t (by omega); rw [hp] at this; cases this
  have hperm : (s.tbl.pollFds.tail.map PollFd.fd).isPerm (s.tbl.pollFds.tail.map PollFd.fd) = true :=
    List.isPerm_iff.2 (List.Perm.refl _)
  have hl := lists_of_perm hT.inv hT.rel hperm
  have hen := enumerates_of hT.rel hl
  obtain ⟨fds', _, _, h2⟩ := round_spec hT.inv hT.rel os _ hen s.notified
  have hcnt := osPoll_count hT.inv hT.rel os _ hen
  rw [if_neg (by
    rintro ⟨n1, n2, n3⟩
    rcases hfree with hf | hf | hf
    · rw [hf] at hos; simp at hos; exact n2 hos
    · rw [n1] at hf; cases hf
    · rw [hcnt, if_pos n2, List.filter_eq_nil_iff.2 (by intro fd hfd; simp [n3 fd hfd])] at hf
      simp at hf)] at h2
  have h1 : step c s t (.waitPoll os) = some ({ s with pc := PollP.upd s.pc t (if s.chan > 0 then .wPopAll true os else .wSwap2 true os) }, .tau) := by
    unfold step
    rw [if_pos ht, hp]
    simp only
    rw [if_pos ⟨hos, .inr trivial⟩]
  have h3 : step c { s with chan := 0, pc := PollP.upd s.pc t (.wSwap2 true os) } t (.waitSwap2 (s.tbl.pollFds.tail.map PollFd.fd)) =
      some ({ s with chan := 0, tbl := fds', notified := false, pc := PollP.upd s.pc t (.wUnlock true (.ok (waitEvents os (mapOf c tr) (s.tbl.pollFds.tail.map PollFd.fd)))) },
        .round t os (s.tbl.pollFds.tail.map PollFd.fd) s.notified (.events (waitEvents os (mapOf c tr) (s.tbl.pollFds.tail.map PollFd.fd)))) := by
    unfold step
    rw [if_pos ht]
    simp only [upd_self]
    rw [if_pos hperm, h2]
    simp only [upd_upd]
  have h4 : ∀ tbl mtx lib ln n ops ch pc r, step c ⟨tbl, mtx, lib, ln, n, ops, ch, PollP.upd pc t (.wUnlock true r)⟩ t .waitUnlock =
      some (⟨tbl, none, lib, ln, n, ops, ch, PollP.upd pc t (.wFinish true r)⟩, .tau) := by
    intros; unfold step; rw [if_pos ht]; simp only [upd_self, upd_upd]
  have h5 : ∀ tbl mtx lib ln n ops ch pc evs, step c ⟨tbl, mtx, lib, ln, n, ops, ch, PollP.upd pc t (.wFinish true (.ok evs))⟩ t .waitFinish =
      some (⟨tbl, mtx, none, false, n, ops, ch, PollP.upd pc t .out⟩, .waitOk t (visible evs).length (visible evs)) := by
    intros; unfold step; rw [if_pos ht]; simp only [upd_self, upd_upd]
  obtain ⟨k, hk⟩ : ∃ k, ∀ rest, runActs c { s with pc := PollP.upd s.pc t (if s.chan > 0 then .wPopAll true os else .wSwap2 true os) }
      (List.replicate k (t, .waitPopAll) ++ rest) =
        (runActs c { s with chan := 0, pc := PollP.upd s.pc t (.wSwap2 true os) } rest).map fun q => (q.1, q.2 ++ List.replicate k .tau) := by
    by_cases hch : s.chan > 0
    · rw [if_pos hch]
      obtain ⟨k, hk⟩ := popAll_run (b := true) (os := os) ht s.chan { s with pc := PollP.upd s.pc t (.wPopAll true os) } (Nat.le_refl _) (upd_self _ _ _)
      simp only [upd_upd] at hk
      exact ⟨k, hk⟩
    · rw [if_neg hch]
      have h0 : s.chan = 0 := by omega
      refine ⟨0, fun rest => ?_⟩
      have e : ({ s with chan := 0, pc := PollP.upd s.pc t (.wSwap2 true os) } : S) = { s with pc := PollP.upd s.pc t (.wSwap2 true os) } := by
        rw [← h0]
      rw [e]
      simp only [List.replicate_zero, List.nil_append, List.append_nil]
      cases runActs c { s with pc := PollP.upd s.pc t (.wSwap2 true os) } rest <;> rfl
  refine ⟨_, List.replicate k (t, .waitPopAll) ++ [(t, .waitSwap2 (s.tbl.pollFds.tail.map PollFd.fd)), (t, .waitUnlock), (t, .waitFinish)],
    { s with chan := 0, tbl := fds', notified := false, mtx := none, libNotified := false, lib := none, pc := PollP.upd s.pc t .out },
    [.tau, .round t os (s.tbl.pollFds.tail.map PollFd.fd) s.notified (.events (waitEvents os (mapOf c tr) (s.tbl.pollFds.tail.map PollFd.fd)))]
      ++ List.replicate k .tau,
    (visible (waitEvents os (mapOf c tr) (s.tbl.pollFds.tail.map PollFd.fd))).length,
    visible (waitEvents os (mapOf c tr) (s.tbl.pollFds.tail.map PollFd.fd)), h1, ?_, ?_, upd_self _ _ _⟩
  · intro x hx
    simp only [List.mem_cons, List.mem_append, List.mem_replicate, List.not_mem_nil, or_false] at hx
    rcases hx with ⟨_, rfl⟩ | rfl | rfl | rfl <;> exact ⟨rfl, nofun, nofun, nofun⟩
  · simp only [hk, runActs, Option.bind_some, h3, h4, h5, Option.map_some]
    rfl

end Polling.C05
