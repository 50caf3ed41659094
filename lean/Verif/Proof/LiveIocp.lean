import Verif.Proof.ApiIocp
import Verif.Proof.LiveKq

/-! When an event may be expected (`Spec/Live.lean`): the registration of a socket on Windows. -/

namespace Polling.IocpM
open Iocp IocpSpec Api

/-- What is visible of a call. -/
def viewI : IocpSpec.Call → Live.Call
  | .add _ fd ev mode | .modify _ fd ev mode => .set fd ev.key ev.readable ev.writable mode
  | .delete _ fd => .delete fd

theorem viewI_fd (c : IocpSpec.Call) : (viewI c).fd = callFd c := by cases c <;> rfl

theorem ofIObs_begin (t : Tid) (c : IocpSpec.Call) : Live.ofIObs (.begin t c) = if callSock c then [.begin t (viewI c)] else [] := by
  cases c with
  | add k fd ev mode => cases k <;> rfl
  | modify k fd ev mode => cases k <;> rfl
  | delete k fd => cases k <;> rfl

/-- Observations that are not of registration calls. -/
theorem ofIObs_other {o : IObs} (h : Other o) : (∀ u c, .begin u c ∉ Live.ofIObs o) ∧ ∀ u b, .ret u b ∉ Live.ofIObs o := by
  cases o <;> first | exact absurd h id | (constructor <;> intro _ _ hm <;> simp [Live.ofIObs] at hm)

theorem calling_skip {l : List Live.Obs} (hb : ∀ u c, .begin u c ∉ l) (hr : ∀ u b, .ret u b ∉ l) (tr : List Live.Obs) (t : Tid) :
    Live.calling (l ++ tr) t = Live.calling tr t := by
  induction l with
  | nil => rfl
  | cons x l ih =>
    have ih := ih (fun u c h => hb u c (List.mem_cons_of_mem _ h)) (fun u b h => hr u b (List.mem_cons_of_mem _ h))
    cases x with
    | begin u c => exact (hb u c List.mem_cons_self).elim
    | ret u b => exact (hr u b List.mem_cons_self).elim
    | _ => exact ih

theorem uobs_view {o : IObs} (h : UObs o) : Live.ofIObs o = [] := by cases o <;> first | rfl | exact absurd h id

/-- A thread in a call for a socket is seen in it. -/
theorem calling_of {n P s tr} (h : Reach n P s tr) : ∀ u call, (s.pc u).call? = some call → callSock call = true →
    Live.calling (tr.flatMap Live.ofIObs) u = some (viewI call) := by
  induction h with
  | init => intro u call h; cases h
  | @step s tr a s' o hr _ hs ih =>
    have hc := step_cls hs
    intro u call hcall hsock
    rw [List.flatMap_cons]
    -- nothing is seen, and the thread stays in its call
    have same : Live.ofIObs o = [] → (s'.pc u).call? = (s.pc u).call? →
        Live.calling (Live.ofIObs o ++ tr.flatMap Live.ofIObs) u = some (viewI call) := by
      intro h1 h2
      rw [h1]; exact ih u call (by rw [← h2]; exact hcall) hsock
    have within : ∀ {t : Tid} {p : Pc}, Live.ofIObs o = [] → s'.pc = upd s.pc t p → p.call? = (s.pc t).call? →
        Live.calling (Live.ofIObs o ++ tr.flatMap Live.ofIObs) u = some (viewI call) := by
      intro t p h1 h2 h3
      refine same h1 ?_
      rw [h2]
      by_cases e : u = t
      · subst e; rw [upd_self, h3]
      · rw [upd_other _ _ e]
    have ends : ∀ {t : Tid} {b : Bool}, Live.ofIObs o = [.ret t b] → (u = t → (s'.pc u).call? = none) → (u ≠ t → s'.pc u = s.pc u) →
        Live.calling (Live.ofIObs o ++ tr.flatMap Live.ofIObs) u = some (viewI call) := by
      intro t b h1 h2 h3
      by_cases e : u = t
      · rw [h2 e] at hcall; cases hcall
      · rw [h1]
        simp only [List.cons_append, List.nil_append, Live.calling]
        rw [if_neg (fun e' => e e'.symm)]
        exact ih u call (by rw [← h3 e]; exact hcall) hsock
    have out : ∀ {t : Tid}, s'.pc = upd s.pc t .out → (u = t → (s'.pc u).call? = none) ∧ (u ≠ t → s'.pc u = s.pc u) := by
      intro t h1
      rw [h1]
      exact ⟨fun e => by rw [e, upd_self]; rfl, fun e => upd_other _ _ e⟩
    cases hc with
    | other ho hpc hph hok herr =>
      rw [calling_skip (ofIObs_other ho).1 (ofIObs_other ho).2]
      rcases hpc u with h1 | ⟨h1, _⟩
      · exact ih u call (by rw [← h1]; exact hcall) hsock
      · rw [h1] at hcall; cases hcall
    | refuse hp =>
      rename_i t c r
      exact ends rfl (fun e => by rw [e, hp]; rfl) (fun _ => rfl)
    | begin p hp h1 hpc hph =>
      rename_i t c
      have hpcall : p.call? = some c := by rcases h1 with ⟨rfl, _⟩ | rfl <;> rfl
      rw [ofIObs_begin]
      by_cases e : u = t
      · subst e
        rw [hpc, upd_self, hpcall] at hcall
        cases hcall
        rw [if_pos hsock]
        simp [Live.calling]
      · rw [hpc, upd_other _ _ e] at hcall
        have := ih u call hcall hsock
        split
        · simp only [List.cons_append, List.nil_append, Live.calling]
          rw [if_neg (fun e' => e e'.symm)]; exact this
        · exact this
    | fail hp hpc hph => exact ends rfl (out hpc).1 (out hpc).2
    | ready hp hpc hph => exact within rfl hpc (by rw [hp]; rfl)
    | insert hp hpc ht hph => exact within rfl hpc (by rw [hp]; rfl)
    | found hp hpc ht hph => exact within rfl hpc (by rw [hp]; rfl)
    | gone hp hpc ht hph => exact ends rfl (out hpc).1 (out hpc).2
    | remove hp hpc ht hph => exact within rfl hpc (by rw [hp]; rfl)
    | change q hp hpc hq hph => exact within rfl hpc (by rw [hp]; rcases hq with rfl | rfl <;> rfl)
    | delete hp hpc hph => exact ends rfl (out hpc).1 (out hpc).2
    | work hp hpc ho hph => exact within (uobs_view ho) hpc (by rw [hp]; rfl)
    | worked hp hpc ho hu hph => exact within (uobs_view ho) hpc (by rw [hp]; rfl)
    | ret hp hpc hph => exact ends rfl (out hpc).1 (out hpc).2

/-! `wait` begins and ends. -/

theorem ustep_noWait {fault c u c' out o} (h : ustep fault c u = (c', out, o)) : o ≠ .waitBegin := by
  rintro rfl; exact absurd (uobs_ustep h) id

theorem step_waitBegin {n s a s'} (hs : step n s a = some (s', .waitBegin)) : s.phase = .idle := by
  have hc := step_cls hs
  cases a with
  | waitBegin timed cap =>
    simp only [step] at hs
    split at hs
    · assumption
    · cases hs
  | call t call => simp only [step] at hs; repeat' split at hs
                   all_goals cases hs
  | go t fault =>
    simp only [step] at hs
    split at hs
    · cases hs
    · exact absurd (noFind_goCall hs).1 id
  | wait fault =>
    simp only [step, goWait] at hs
    split at hs
    · cases hs
    · cases hs
    · split at hs <;> cases hs
    · rename_i q _
      split at hs <;>
        (rename_i m _; injection hs with hs; injection hs with h1 h2; exact absurd (uobs_updateObs q m) (by rw [h2]; exact id))
    · cases hs
    · unfold waitFail at hs; split at hs <;> cases hs
    · unfold waitFail at hs; split at hs <;> cases hs
    · cases hs
    · split at hs
      · cases hs
      · cases hs
      · cases hs
      · cases hs
      · rename_i ev _ _; cases ev <;> cases hs
    · split at hs <;> (rename_i hu; injection hs with hs; injection hs with h1 h2; exact (ustep_noWait hu h2).elim)
    · cases hs
    · cases hs
  | _ =>
    simp only [step] at hs
    repeat' split at hs
    all_goals cases hs

theorem step_toIdle {n s a s' o} (hs : step n s a = some (s', o)) (h : s.phase ≠ .idle) (h' : s'.phase = .idle) :
    (∃ m evs, o = .waitOk m evs) ∨ ∃ e, o = .waitErr e := by
  cases a with
  | go t fault =>
    simp only [step] at hs
    split at hs
    · cases hs
    · rw [(noFind_goCall hs).2] at h'; exact (h h').elim
  | wait fault =>
    simp only [step, goWait, waitFail] at hs
    split at hs
    · cases hs; cases h'
    · cases hs; cases h'
    · split at hs <;> (cases hs; cases h')
    · split at hs <;> (cases hs; cases h')
    · cases hs; cases h'
    · split at hs
      · cases hs; cases h'
      · cases hs; exact .inr ⟨_, rfl⟩
    · split at hs
      · cases hs; cases h'
      · cases hs; exact .inr ⟨_, rfl⟩
    · cases hs; cases h'
    · split at hs <;> (cases hs; cases h')
    · split at hs <;> (cases hs; cases h')
    · cases hs; exact .inl ⟨_, _, rfl⟩
    · cases hs
  | waitBegin timed cap =>
    simp only [step] at hs
    repeat' split at hs
    all_goals cases hs
    all_goals cases h'
  | get =>
    simp only [step] at hs
    repeat' split at hs
    all_goals cases hs
    all_goals cases h'
  | getFail e =>
    simp only [step] at hs
    repeat' split at hs
    all_goals cases hs
    all_goals cases h'
  | decide e =>
    simp only [step] at hs
    repeat' split at hs
    all_goals cases hs
    all_goals cases h'
  | _ =>
    simp only [step] at hs
    repeat' split at hs
    all_goals cases hs
    all_goals exact (h h').elim

/-! The registration. -/

/-- What the program was told since. -/
def ToldI (m : List IObs) (key : Key) : Prop :=
  .waitErr ∈ m.flatMap Live.ofIObs ∨ ∃ keys, .waitOk keys ∈ m.flatMap Live.ofIObs ∧ key ∈ keys

theorem ToldI.cons {m key} (o : IObs) (h : ToldI m key) : ToldI (o :: m) key := by
  rcases h with h | ⟨keys, h1, h2⟩
  · exact .inl (by rw [List.flatMap_cons]; exact List.mem_append_right _ h)
  · exact .inr ⟨keys, by rw [List.flatMap_cons]; exact List.mem_append_right _ h1, h2⟩

/-- The registration is the one that the program made; if an event of it was delivered, the program was told or the event is in the
buffer of a `wait`. -/
def GoodI (m : List IObs) (s : S) (tr : List IObs) (fd : Fd) (ev : Event EventExtra) (mode : PollMode) : Prop :=
  ∃ p q, registered tr true fd = some p ∧ reg tr p = some q ∧ q.ev = ev ∧ q.mode = mode ∧
    (q.fired = true → mode = .level ∨ ToldI m ev.key ∨ ev.key ∈ (found tr).map Event.key ∧ s.phase ≠ .idle)

/-- The observation does not concern the registration of this socket. -/
def Apart (fd : Fd) (mode : PollMode) : IObs → Prop
  | .inserted _ k g _ _ _ | .changed _ k g _ _ _ | .removed _ k g _ => ¬ (k = true ∧ g = fd)
  | .waitAgain => mode = .level
  | _ => True

theorem GoodI.step {n P s tr a s' o m fd ev mode} (hr : Reach n P s tr) (hP : P s a) (hs : step n s a = some (s', o)) (ha : Apart fd mode o)
    (h : GoodI m s tr fd ev mode) : GoodI (o :: m) s' (o :: tr) fd ev mode := by
  obtain ⟨p, q, h1, h2, rfl, rfl, h5⟩ := h
  have hti := reach_ti hr
  have hti' := reach_ti (hr.step hP hs)
  have hq : q.sock = true ∧ q.fd = fd := by
    have e1 := hti.ids true fd p (by rw [← hti.tab]; exact h1)
    rw [ident_reg hti h2] at e1
    injection e1 with e1
    injection e1 with e1 e2
    exact ⟨e1, e2⟩
  have hidle := step_toIdle hs
  have plain : registered (o :: tr) true fd = registered tr true fd → reg (o :: tr) p = reg tr p → (∀ e ∈ found tr, e ∈ found (o :: tr)) →
      (∀ m evs, o ≠ .waitOk m evs) → (∀ e, o ≠ .waitErr e) → GoodI (o :: m) s' (o :: tr) fd q.ev q.mode := by
    intro g1 g2 g3 g4 g5
    refine ⟨p, q, g1.trans h1, g2.trans h2, rfl, rfl, fun hf => ?_⟩
    rcases h5 hf with h | h | ⟨h, h'⟩
    · exact .inl h
    · exact .inr (.inl (h.cons _))
    · refine .inr (.inr ⟨?_, fun e => ?_⟩)
      · obtain ⟨x, hx, hk⟩ := List.mem_map.1 h
        exact List.mem_map.2 ⟨x, g3 x hx, hk⟩
      · rcases hidle h' e with ⟨m, evs, e⟩ | ⟨x, e⟩
        · exact g4 m evs e
        · exact g5 x e
  have same : registered (o :: tr) true fd = registered tr true fd → reg (o :: tr) p = reg tr p → found (o :: tr) = found tr →
      (∀ m evs, o ≠ .waitOk m evs) → (∀ e, o ≠ .waitErr e) → GoodI (o :: m) s' (o :: tr) fd q.ev q.mode :=
    fun g1 g2 g3 => plain g1 g2 (fun e he => by rw [g3]; exact he)
  cases o with
  | inserted u k g p' ev' mode' =>
    have hne : p ≠ p' := by
      rintro rfl
      have e1 := ident_reg hti' (p := p) (q := ⟨k, g, ev', mode', false, false⟩) (by simp [reg])
      have e2 := hti'.ids true fd p (by rw [← hti'.tab]; simp only [registered]; rw [if_neg (fun e => ha ⟨e.1.symm, e.2.symm⟩)]; exact h1)
      rw [e1] at e2; cases e2
      exact ha ⟨rfl, rfl⟩
    exact same (by simp only [registered]; rw [if_neg (fun e => ha ⟨e.1.symm, e.2.symm⟩)]) (by simp only [reg]; rw [if_neg hne]) rfl nofun nofun
  | changed u k g p' ev' mode' =>
    have hne : p ≠ p' := by
      rintro rfl
      obtain ⟨q', e1, e2, e3⟩ := (change_own hr hs).1 _ _ _ _ _ _ rfl
      rw [h2] at e1; cases e1
      exact ha ⟨e2.symm.trans hq.1, e3.symm.trans hq.2⟩
    exact same rfl (by simp only [reg]; rw [if_neg hne]) rfl nofun nofun
  | removed u k g p' => exact same (by simp only [registered]; rw [if_neg (fun e => ha ⟨e.1.symm, e.2.symm⟩)]) rfl rfl nofun nofun
  | deleted u k g p' r =>
    by_cases e : p = p'
    · refine ⟨p, { q with ended := true }, h1, by simp only [reg]; rw [if_pos e, h2]; rfl, rfl, rfl, fun hf => ?_⟩
      rcases h5 hf with h | h | ⟨h, h'⟩
      · exact .inl h
      · exact .inr (.inl (h.cons _))
      · refine .inr (.inr ⟨h, fun e => ?_⟩)
        rcases hidle h' e with ⟨m, evs, e⟩ | ⟨x, e⟩ <;> cases e
    · exact same rfl (by simp only [reg]; rw [if_neg e]) rfl nofun nofun
  | deliver k g p' e' =>
    by_cases e : p = p'
    · subst e
      obtain ⟨q', g1, g2, g3, g4, _⟩ := delivered hr hs
      rw [h2] at g1; cases g1
      refine ⟨p, { q with fired := true }, h1, by simp [reg, h2], rfl, rfl, fun _ => .inr (.inr ⟨?_, ?_⟩)⟩
      · have := (g4 (g2.symm.trans hq.1)).2.1
        simp only [found, List.map_append, List.mem_append, List.map_cons, List.map_nil, List.mem_singleton]
        exact .inr this.symm
      · intro e
        cases a with
        | wait fault =>
          by_cases hi : s.phase = .idle
          · simp only [IocpM.step, goWait, hi] at hs; cases hs
          · rcases hidle hi e with ⟨m, evs, e⟩ | ⟨x, e⟩ <;> cases e
        | call t call => simp only [IocpM.step] at hs; repeat' split at hs
                         all_goals cases hs
        | go t fault =>
          simp only [IocpM.step] at hs
          split at hs
          · cases hs
          · exact absurd (noFind_goCall hs).1 id
        | _ =>
          simp only [IocpM.step] at hs
          repeat' split at hs
          all_goals cases hs
    · exact plain rfl (by simp only [reg]; rw [if_neg e]) (fun x hx => by simp only [found]; exact List.mem_append_left _ hx) nofun nofun
  | received p' e' => exact plain rfl rfl (fun x hx => by simp only [found]; exact List.mem_append_left _ hx) nofun nofun
  | waitBegin =>
    refine ⟨p, q, h1, h2, rfl, rfl, fun hf => ?_⟩
    rcases h5 hf with h | h | ⟨_, h⟩
    · exact .inl h
    · exact .inr (.inl (h.cons _))
    · exact (h (step_waitBegin hs)).elim
  | waitAgain => exact ⟨p, q, h1, h2, rfl, rfl, fun _ => .inl ha⟩
  | waitOk l evs =>
    refine ⟨p, q, h1, h2, rfl, rfl, fun hf => ?_⟩
    rcases h5 hf with h | h | ⟨h, _⟩
    · exact .inl h
    · exact .inr (.inl (h.cons _))
    · refine .inr (.inl (.inr ⟨evs.map Event.key, by simp [Live.ofIObs], ?_⟩))
      obtain ⟨x, hx, hk⟩ := List.mem_map.1 h
      rw [(waitOk_found hr hs).1]
      refine List.mem_map.2 ⟨x, List.mem_filter.2 ⟨hx, ?_⟩, hk⟩
      rw [hk]; simpa using reach_key hr p q h2 hq.1
  | waitErr e =>
    exact ⟨p, q, h1, h2, rfl, rfl, fun _ => .inr (.inl (.inl (by simp [Live.ofIObs])))⟩
  | _ => exact same rfl rfl rfl nofun nofun

/-- How far the call is. -/
structure ProgI (t : Tid) (c0 : IocpSpec.Call) (fd : Fd) (ev : Event EventExtra) (mode : PollMode) (m : List IObs) (s : S) (tr : List IObs) :
    Prop where
  others : ∀ u c, (s.pc u).call? = some c → callSock c = true → callFd c = fd → u = t ∧ c = c0 ∧ Live.outcome t (m.flatMap Live.ofIObs) = none
  mine : (Live.outcome t (m.flatMap Live.ofIObs) = none ∧ (s.pc t = .prepare c0 ∨ s.pc t = .table c0 ∨
      ∃ p, s.pc t = .set c0 p ∧ registered tr true fd = some p)) ∨
    ((Live.outcome t (m.flatMap Live.ofIObs) = none ∧ ((∃ u, s.pc t = .upd c0 u) ∨ ∃ r, s.pc t = .ret c0 r) ∨
      Live.outcome t (m.flatMap Live.ofIObs) = some true) ∧ GoodI m s tr fd ev mode) ∨
    Live.outcome t (m.flatMap Live.ofIObs) = some false

theorem outI_keep {t : Tid} {m : List IObs} {o : IObs} (h : ∀ u b, .ret u b ∈ Live.ofIObs o → u ≠ t) :
    Live.outcome t ((o :: m).flatMap Live.ofIObs) = Live.outcome t (m.flatMap Live.ofIObs) := by
  rw [List.flatMap_cons, KqM.outcome_append]
  have : Live.outcome t (Live.ofIObs o) = none := by
    generalize Live.ofIObs o = l at h
    induction l with
    | nil => rfl
    | cons x l ih =>
      simp only [Live.outcome]
      rw [ih fun u b hm => h u b (List.mem_cons_of_mem _ hm)]
      cases x with
      | ret u b => exact if_neg (h u b List.mem_cons_self)
      | _ => rfl
  rw [this]
  cases Live.outcome t (m.flatMap Live.ofIObs) <;> rfl

theorem outI_some {t : Tid} {m : List IObs} {b : Bool} (h : Live.outcome t (m.flatMap Live.ofIObs) = some b) (o : IObs) :
    Live.outcome t ((o :: m).flatMap Live.ofIObs) = some b := by
  rw [List.flatMap_cons, KqM.outcome_append, h]

theorem outI_ret {t : Tid} {m : List IObs} {b : Bool} {o : IObs} (h : Live.outcome t (m.flatMap Live.ofIObs) = none)
    (ho : Live.ofIObs o = [.ret t b]) : Live.outcome t ((o :: m).flatMap Live.ofIObs) = some b := by
  rw [List.flatMap_cons, KqM.outcome_append, h, ho]
  simp [Live.outcome]

/-- A step of another thread, or outside of calls, that does not concern the registration. -/
theorem ProgI.keep {t c0 fd ev mode m n P s tr a s' o} (hr : Reach n P s tr) (hP : P s a) (hs : step n s a = some (s', o))
    (h : ProgI t c0 fd ev mode m s tr) (ha : Apart fd mode o)
    (h1 : Live.outcome t (m.flatMap Live.ofIObs) = none → ∀ u b, .ret u b ∈ Live.ofIObs o → u ≠ t)
    (h2 : ∀ u c, (s'.pc u).call? = some c → callSock c = true → callFd c = fd → (s.pc u).call? = some c)
    (h3 : Live.outcome t (m.flatMap Live.ofIObs) = none → s'.pc t = s.pc t) (h4 : registered (o :: tr) true fd = registered tr true fd) :
    ProgI t c0 fd ev mode (o :: m) s' (o :: tr) := by
  refine ⟨?_, ?_⟩
  · intro u c g1 g2 g3
    obtain ⟨e1, e2, e3⟩ := h.others u c (h2 u c g1 g2 g3) g2 g3
    exact ⟨e1, e2, by rw [outI_keep (h1 e3), e3]⟩
  · rcases h.mine with ⟨g1, g2⟩ | ⟨g1, g2⟩ | g1
    · refine .inl ⟨by rw [outI_keep (h1 g1), g1], ?_⟩
      rw [h3 g1, h4]; exact g2
    · refine .inr (.inl ⟨?_, g2.step hr hP hs ha⟩)
      rcases g1 with ⟨g1, g3⟩ | g1
      · exact .inl ⟨by rw [outI_keep (h1 g1), g1], by rw [h3 g1]; exact g3⟩
      · exact .inr (outI_some g1 o)
    · exact .inr (.inr (outI_some g1 o))

theorem prog_step {t c0 fd ev mode m n P s tr a s' o} (hv : c0 = .add true fd ev mode ∨ c0 = .modify true fd ev mode)
    (hr : Reach n P s tr) (hP : P s a) (hs : step n s a = some (s', o))
    (hag : o = .waitAgain → mode = .level)
    (hno : ∀ u call, .begin u call ∈ Live.ofIObs o → call.fd ≠ fd)
    (h : ProgI t c0 fd ev mode m s tr) : ProgI t c0 fd ev mode (o :: m) s' (o :: tr) := by
  have hc0 : callSock c0 = true ∧ callFd c0 = fd := by rcases hv with rfl | rfl <;> exact ⟨rfl, rfl⟩
  -- while the call has not returned, its thread is in it
  have hin : Live.outcome t (m.flatMap Live.ofIObs) = none → (s.pc t).call? = some c0 := by
    intro h1
    rcases h.mine with ⟨_, h2⟩ | ⟨h2, _⟩ | h2
    · rcases h2 with h2 | h2 | ⟨p, h2, _⟩ <;> rw [h2] <;> rfl
    · rcases h2 with ⟨_, h2⟩ | h2
      · rcases h2 with ⟨u, h2⟩ | ⟨r, h2⟩ <;> rw [h2] <;> rfl
      · rw [h1] at h2; cases h2
    · rw [h1] at h2; cases h2
  -- another thread, which is in a call for this source, there is not
  have hsrc : ∀ u c, (s.pc u).call? = some c → callSock c = true → callFd c = fd → u = t ∧ c = c0 ∧
      Live.outcome t (m.flatMap Live.ofIObs) = none := h.others
  -- a step of a thread inside a call for something else
  have elsewhere : ∀ {u : Tid} {c : IocpSpec.Call} {p : Pc}, (s.pc u).call? = some c → ¬ (callSock c = true ∧ callFd c = fd) → s'.pc = upd s.pc u p →
      (p.call? = some c ∨ p.call? = none) → Apart fd mode o → registered (o :: tr) true fd = registered tr true fd →
      (∀ v b, .ret v b ∈ Live.ofIObs o → v = u) → ProgI t c0 fd ev mode (o :: m) s' (o :: tr) := by
    intro u c p g1 g2 g3 g4 g5 g6 g7
    have hut : Live.outcome t (m.flatMap Live.ofIObs) = none → u ≠ t := by
      rintro e rfl
      rw [hin e] at g1; cases g1; exact g2 hc0
    refine h.keep hr hP hs g5 (fun e v b hm => by rw [g7 v b hm]; exact hut e) ?_ (fun e => ?_) g6
    · intro v c' e1 e2 e3
      by_cases e : v = u
      · subst e
        rw [g3, upd_self] at e1
        rcases g4 with g4 | g4
        · rw [g4] at e1; cases e1; exact (g2 ⟨e2, e3⟩).elim
        · rw [g4] at e1; cases e1
      · rw [g3, upd_other _ _ e] at e1; exact e1
    · rw [g3, upd_other _ _ (fun e' => hut e e'.symm)]
  -- the thread of the call itself
  have own : ∀ {u : Tid} {c : IocpSpec.Call} {p : Pc}, (s.pc u).call? = some c → (callSock c = true ∧ callFd c = fd) → s'.pc = upd s.pc u p →
      (p.call? = some c ∨ p.call? = none) →
      u = t ∧ c = c0 ∧ Live.outcome t (m.flatMap Live.ofIObs) = none ∧ s'.pc t = p ∧
      (∀ (x : Option Bool), (p.call? = some c → x = none) → ∀ v c', (s'.pc v).call? = some c' → callSock c' = true → callFd c' = fd →
        v = t ∧ c' = c0 ∧ x = none) := by
    intro u c p g1 g2 g3 g4
    obtain ⟨rfl, rfl, e⟩ := hsrc u c g1 g2.1 g2.2
    refine ⟨rfl, rfl, e, by rw [g3, upd_self], ?_⟩
    intro x hx v c' e1 e2 e3
    by_cases e : v = u
    · subst e
      rw [g3, upd_self] at e1
      rcases g4 with g4 | g4
      · have := hx g4
        rw [g4] at e1; cases e1; exact ⟨rfl, rfl, this⟩
      · rw [g4] at e1; cases e1
    · rw [g3, upd_other _ _ e] at e1
      exact (e (hsrc v c' e1 e2 e3).1).elim
  have hc := step_cls hs
  cases hc with
  | other ho hpc hph hok herr =>
    refine h.keep hr hP hs ?_ (fun _ u b hm => ((ofIObs_other ho).2 u b hm).elim) ?_ ?_ ?_
    · cases o <;> first | exact absurd ho id | exact hag rfl | trivial
    · intro u c g1 _ _
      rcases hpc u with e | ⟨e, _⟩
      · rw [← e]; exact g1
      · rw [e] at g1; cases g1
    · intro e
      rcases hpc t with e' | ⟨_, e'⟩
      · exact e'
      · rw [hin e] at e'; cases e'
    · cases o <;> first | exact absurd ho id | rfl
  | refuse hp =>
    rename_i u c r
    refine h.keep hr hP hs trivial (fun e v b hm => ?_) (fun _ _ g _ _ => g) (fun _ => rfl) rfl
    have hm : .ret v b ∈ [Live.Obs.ret u (r == .ok)] := hm
    rw [List.mem_singleton] at hm; cases hm
    rintro rfl
    rw [hp] at hin; cases hin e
  | begin p hp h1 hpc hph =>
    rename_i u c
    have hpcall : p.call? = some c := by rcases h1 with ⟨rfl, _⟩ | rfl <;> rfl
    have hut : Live.outcome t (m.flatMap Live.ofIObs) = none → t ≠ u := by
      rintro e rfl; rw [hp] at hin; cases hin e
    refine h.keep hr hP hs trivial (fun e v b hm => ?_) ?_ (fun e => by rw [hpc, upd_other _ _ (hut e)]) rfl
    · rw [ofIObs_begin] at hm; split at hm <;> simp at hm
    · intro v c' e1 e2 e3
      by_cases e : v = u
      · subst e
        rw [hpc, upd_self, hpcall] at e1; cases e1
        refine (hno v (viewI c) ?_ (by rw [viewI_fd]; exact e3)).elim
        rw [ofIObs_begin, if_pos e2]; simp
      · rw [hpc, upd_other _ _ e] at e1; exact e1
  | fail hp hpc hph =>
    rename_i u c e
    have hcall : (s.pc u).call? = some c := by rcases hp with hp | ⟨hp, _⟩ <;> rw [hp] <;> rfl
    have hview : Live.ofIObs (.ret u c (.err e)) = [.ret u false] := rfl
    by_cases hsf : callSock c = true ∧ callFd c = fd
    · obtain ⟨rfl, rfl, h1, h2, h3⟩ := own hcall hsf hpc (.inr rfl)
      exact ⟨h3 _ nofun, .inr (.inr (outI_ret h1 hview))⟩
    · exact elsewhere hcall hsf hpc (.inr rfl) trivial rfl (fun v b hm => by rw [hview, List.mem_singleton] at hm; cases hm; rfl)
  | ready hp hpc hph =>
    rename_i u c
    have hcall : (s.pc u).call? = some c := by rw [hp]; rfl
    by_cases hsf : callSock c = true ∧ callFd c = fd
    · obtain ⟨rfl, rfl, h1, h2, h3⟩ := own hcall hsf hpc (.inl rfl)
      have ho := outI_keep (t := u) (m := m) (o := .tau) nofun
      exact ⟨h3 _ (fun _ => by rw [ho, h1]), .inl ⟨by rw [ho, h1], .inr (.inl h2)⟩⟩
    · exact elsewhere hcall hsf hpc (.inl rfl) trivial rfl nofun
  | insert hp hpc ht hph =>
    rename_i u k g ev' mode' p
    have hcall : (s.pc u).call? = some (.add k g ev' mode') := by rw [hp]; rfl
    by_cases hsf : callSock (.add k g ev' mode') = true ∧ callFd (.add k g ev' mode') = fd
    · obtain ⟨rfl, hcc, h1, h2, h3⟩ := own hcall hsf hpc (.inl rfl)
      have ho := outI_keep (t := u) (m := m) (o := .inserted u k g p ev' mode') nofun
      refine ⟨h3 _ (fun _ => by rw [ho, h1]), .inr (.inl ⟨.inl ⟨by rw [ho, h1], .inl ⟨_, by rw [h2, hcc]⟩⟩, ?_⟩)⟩
      rcases hv with hv | hv
      · rw [hv] at hcc; cases hcc
        exact ⟨p, ⟨true, fd, ev, mode, false, false⟩, by simp [registered], by simp [reg], rfl, rfl, nofun⟩
      · rw [hv] at hcc; cases hcc
    · refine elsewhere hcall hsf hpc (.inl rfl) hsf ?_ nofun
      simp only [registered]; rw [if_neg (fun e => hsf ⟨e.1.symm, e.2.symm⟩)]
  | found hp hpc ht hph =>
    rename_i u k g ev' mode' p
    have hcall : (s.pc u).call? = some (.modify k g ev' mode') := by rw [hp]; rfl
    by_cases hsf : callSock (.modify k g ev' mode') = true ∧ callFd (.modify k g ev' mode') = fd
    · obtain ⟨rfl, hcc, h1, h2, h3⟩ := own hcall hsf hpc (.inl rfl)
      have ho := outI_keep (t := u) (m := m) (o := .tau) nofun
      refine ⟨h3 _ (fun _ => by rw [ho, h1]), .inl ⟨by rw [ho, h1], .inr (.inr ⟨p, by rw [h2, hcc], ?_⟩)⟩⟩
      have : k = true ∧ g = fd := hsf
      obtain ⟨rfl, rfl⟩ := this
      show registered tr true g = some p
      rw [(reach_ti hr).tab]; exact ht
    · exact elsewhere hcall hsf hpc (.inl rfl) trivial rfl nofun
  | gone hp hpc ht hph =>
    rename_i u k g
    have hcall : (s.pc u).call? = some (.delete k g) := by rw [hp]; rfl
    by_cases hsf : callSock (.delete k g) = true ∧ callFd (.delete k g) = fd
    · obtain ⟨rfl, hcc, _⟩ := own hcall hsf hpc (.inr rfl)
      rcases hv with hv | hv <;> (rw [hv] at hcc; cases hcc)
    · refine elsewhere hcall hsf hpc (.inr rfl) trivial rfl (fun v b hm => ?_)
      have hm : .ret v b ∈ [Live.Obs.ret u true] := hm
      rw [List.mem_singleton] at hm; cases hm; rfl
  | remove hp hpc ht hph =>
    rename_i u k g p
    have hcall : (s.pc u).call? = some (.delete k g) := by rw [hp]; rfl
    by_cases hsf : callSock (.delete k g) = true ∧ callFd (.delete k g) = fd
    · obtain ⟨rfl, hcc, _⟩ := own hcall hsf hpc (.inl rfl)
      rcases hv with hv | hv <;> (rw [hv] at hcc; cases hcc)
    · refine elsewhere hcall hsf hpc (.inl rfl) hsf ?_ nofun
      simp only [registered]; rw [if_neg (fun e => hsf ⟨e.1.symm, e.2.symm⟩)]
  | change q hp hpc hq hph =>
    rename_i u k g ev' mode' p
    have hcall : (s.pc u).call? = some (.modify k g ev' mode') := by rw [hp]; rfl
    have hqc : q.call? = some (.modify k g ev' mode') := by rcases hq with rfl | rfl <;> rfl
    by_cases hsf : callSock (.modify k g ev' mode') = true ∧ callFd (.modify k g ev' mode') = fd
    · obtain ⟨rfl, hcc, h1, h2, h3⟩ := own hcall hsf hpc (.inl hqc)
      have ho := outI_keep (t := u) (m := m) (o := .changed u k g p ev' mode') nofun
      have hreg : registered tr true fd = some p := by
        rcases h.mine with ⟨_, h4⟩ | ⟨h4, _⟩ | h4
        · rcases h4 with h4 | h4 | ⟨p', h4, h5⟩
          · rw [hp] at h4; cases h4
          · rw [hp] at h4; cases h4
          · rw [hp] at h4; cases h4; exact h5
        · rcases h4 with ⟨_, ⟨x, h4⟩ | ⟨x, h4⟩⟩ | h4
          · rw [hp] at h4; cases h4
          · rw [hp] at h4; cases h4
          · rw [h1] at h4; cases h4
        · rw [h1] at h4; cases h4
      have hti := reach_ti hr
      obtain ⟨q0, hq0, _⟩ := reg_ident hti (hti.ids true fd p (by rw [← hti.tab]; exact hreg))
      refine ⟨h3 _ (fun _ => by rw [ho, h1]), .inr (.inl ⟨.inl ⟨by rw [ho, h1], ?_⟩, ?_⟩)⟩
      · rw [h2]
        rcases hq with rfl | rfl
        · exact .inl ⟨_, by rw [hcc]⟩
        · exact .inr ⟨_, by rw [hcc]⟩
      · rcases hv with hv | hv
        · rw [hv] at hcc; cases hcc
        · rw [hv] at hcc; cases hcc
          exact ⟨p, { q0 with ev, mode, fired := false }, hreg, by simp [reg, hq0], rfl, rfl, nofun⟩
    · exact elsewhere hcall hsf hpc (.inl hqc) hsf rfl nofun
  | delete hp hpc hph =>
    rename_i u c p r
    have hcall : (s.pc u).call? = some c := by rw [hp]; rfl
    by_cases hsf : callSock c = true ∧ callFd c = fd
    · obtain ⟨rfl, rfl, h1, h2, h3⟩ := own hcall hsf hpc (.inr rfl)
      refine ⟨h3 _ nofun, ?_⟩
      rcases h.mine with ⟨_, h4⟩ | ⟨h4, _⟩ | h4
      · rcases h4 with h4 | h4 | ⟨p', h4, h5⟩ <;> (rw [hp] at h4; cases h4)
      · rcases h4 with ⟨_, ⟨x, h4⟩ | ⟨x, h4⟩⟩ | h4
        · rw [hp] at h4; cases h4
        · rw [hp] at h4; cases h4
        · rw [h1] at h4; cases h4
      · rw [h1] at h4; cases h4
    · refine elsewhere hcall hsf hpc (.inr rfl) trivial rfl (fun v b hm => ?_)
      have hm : .ret v b ∈ [Live.Obs.ret u (r == .ok)] := hm
      rw [List.mem_singleton] at hm; cases hm; rfl
  | work hp hpc ho hph =>
    rename_i u c x x'
    have hcall : (s.pc u).call? = some c := by rw [hp]; rfl
    have hview := uobs_view ho
    have hap : Apart fd mode o := by cases o <;> first | trivial | exact absurd ho id
    have hrg : registered (o :: tr) true fd = registered tr true fd := by cases o <;> first | rfl | exact absurd ho id
    by_cases hsf : callSock c = true ∧ callFd c = fd
    · obtain ⟨rfl, rfl, h1, h2, h3⟩ := own hcall hsf hpc (.inl rfl)
      have ho := outI_keep (t := u) (m := m) (o := o) (by rw [hview]; nofun)
      refine ⟨h3 _ (fun _ => by rw [ho, h1]), ?_⟩
      rcases h.mine with ⟨_, h4⟩ | ⟨h4, h5⟩ | h4
      · rcases h4 with h4 | h4 | ⟨p', h4, h5⟩ <;> (rw [hp] at h4; cases h4)
      · exact .inr (.inl ⟨.inl ⟨by rw [ho, h1], .inl ⟨_, h2⟩⟩, h5.step hr hP hs hap⟩)
      · rw [h1] at h4; cases h4
    · exact elsewhere hcall hsf hpc (.inl rfl) hap hrg (by rw [hview]; nofun)
  | worked hp hpc ho hu hph =>
    rename_i u c x r fault c'
    have hcall : (s.pc u).call? = some c := by rw [hp]; rfl
    have hview := uobs_view ho
    have hap : Apart fd mode o := by cases o <;> first | trivial | exact absurd ho id
    have hrg : registered (o :: tr) true fd = registered tr true fd := by cases o <;> first | rfl | exact absurd ho id
    by_cases hsf : callSock c = true ∧ callFd c = fd
    · obtain ⟨rfl, rfl, h1, h2, h3⟩ := own hcall hsf hpc (.inl rfl)
      have ho := outI_keep (t := u) (m := m) (o := o) (by rw [hview]; nofun)
      refine ⟨h3 _ (fun _ => by rw [ho, h1]), ?_⟩
      rcases h.mine with ⟨_, h4⟩ | ⟨h4, h5⟩ | h4
      · rcases h4 with h4 | h4 | ⟨p', h4, h5⟩ <;> (rw [hp] at h4; cases h4)
      · exact .inr (.inl ⟨.inl ⟨by rw [ho, h1], .inr ⟨_, h2⟩⟩, h5.step hr hP hs hap⟩)
      · rw [h1] at h4; cases h4
    · exact elsewhere hcall hsf hpc (.inl rfl) hap hrg (by rw [hview]; nofun)
  | ret hp hpc hph =>
    rename_i u c r
    have hcall : (s.pc u).call? = some c := by rw [hp]; rfl
    have hview : Live.ofIObs (.ret u c r) = [.ret u (r == .ok)] := rfl
    by_cases hsf : callSock c = true ∧ callFd c = fd
    · obtain ⟨rfl, rfl, h1, h2, h3⟩ := own hcall hsf hpc (.inr rfl)
      refine ⟨h3 _ nofun, ?_⟩
      rcases h.mine with ⟨_, h4⟩ | ⟨h4, h5⟩ | h4
      · rcases h4 with h4 | h4 | ⟨p', h4, h5⟩ <;> (rw [hp] at h4; cases h4)
      · cases r with
        | ok => exact .inr (.inl ⟨.inr (outI_ret h1 hview), h5.step hr hP hs trivial⟩)
        | err e => exact .inr (.inr (outI_ret h1 hview))
      · rw [h1] at h4; cases h4
    · exact elsewhere hcall hsf hpc (.inr rfl) trivial rfl (fun v b hm => by rw [hview, List.mem_singleton] at hm; cases hm; rfl)

theorem reach_inv {n P s o tr} (h : Reach n P s (o :: tr)) : ∃ s0 a, Reach n P s0 tr ∧ P s0 a ∧ step n s0 a = some (s, o) := by
  generalize he : o :: tr = l at h
  cases h with
  | init => cases he
  | step hr hP hs => cases he; exact ⟨_, _, hr, hP, hs⟩

theorem progI {n P} {t : Tid} {c0 : IocpSpec.Call} {fd : Fd} {ev : Event EventExtra} {mode : PollMode} {m1 : List IObs}
    (hv : c0 = .add true fd ev mode ∨ c0 = .modify true fd ev mode)
    (hbase : ∀ u call, Live.calling (m1.flatMap Live.ofIObs) u = some call → call.fd ≠ fd) : ∀ (m : List IObs) {s},
    Reach n P s (m ++ .begin t c0 :: m1) → (.waitAgain ∈ m → mode = .level) →
    (∀ u call, .begin u call ∈ m.flatMap Live.ofIObs → call.fd ≠ fd) →
    ProgI t c0 fd ev mode m s (m ++ .begin t c0 :: m1) := by
  intro m
  induction m with
  | nil =>
    intro s h _ _
    obtain ⟨s0, a, h', _, hs⟩ := reach_inv h
    have hc := step_cls hs
    cases hc with
    | begin p hp h1 hpc hph =>
      have hpcall : p.call? = some c0 := by rcases h1 with ⟨rfl, _⟩ | rfl <;> rfl
      refine ⟨?_, .inl ⟨rfl, ?_⟩⟩
      · intro u c g1 g2 g3
        by_cases e : u = t
        · subst e; rw [hpc, upd_self, hpcall] at g1; cases g1; exact ⟨rfl, rfl, rfl⟩
        · rw [hpc, upd_other _ _ e] at g1
          exact (hbase u _ (calling_of h' u c g1 g2) (by rw [viewI_fd]; exact g3)).elim
      · rw [hpc, upd_self]
        rcases h1 with ⟨rfl, _⟩ | rfl
        · exact .inl rfl
        · exact .inr (.inl rfl)
    | other ho => exact absurd ho id
    | work _ _ ho => exact absurd ho id
    | worked _ _ ho => exact absurd ho id
  | cons o m ih =>
    intro s h hag hno
    rw [List.cons_append] at h
    obtain ⟨s0, a, h', hP, hs⟩ := reach_inv h
    refine prog_step hv h' hP hs (fun e => hag (by rw [e]; exact List.mem_cons_self)) ?_ (ih h' (fun hm => hag (List.mem_cons_of_mem _ hm)) ?_)
    · intro u call hm; exact hno u call (by rw [List.flatMap_cons]; exact List.mem_append_left _ hm)
    · intro u call hm; exact hno u call (by rw [List.flatMap_cons]; exact List.mem_append_right _ hm)

/-- What a program waits for is registered, and armed, while a thread waits at the port. -/
theorem asked_registered {n P s tr} (hh : Reach n P s tr) {w : W} (hph : s.phase = .port w) {fd key r wr mode}
    (hag : .waitAgain ∈ tr → mode = .level) (hask : Live.Asked (tr.flatMap Live.ofIObs) fd key r wr mode) :
    ∃ p q, registered tr true fd = some p ∧ reg tr p = some q ∧ q.ev.key = key ∧ q.ev.readable = r ∧ q.ev.writable = wr ∧ q.mode = mode ∧
      (mode = .level ∨ q.fired = false) ∧ ∀ u c, (s.pc u).call? = some c → callSock c = true → callFd c ≠ fd := by
  obtain ⟨l2, t, l1, he, ho, hb, hcl, hm⟩ := hask
  obtain ⟨m2, o, m1, a, b, rfl, e2, rfl, rfl⟩ := Live.flatMap_split _ _ _ _ _ he
  have hobs : ∃ c0 ev, o = .begin t c0 ∧ (c0 = .add true fd ev mode ∨ c0 = .modify true fd ev mode) ∧ ev.key = key ∧ ev.readable = r ∧
      ev.writable = wr ∧ a = [] ∧ b = [] := by
    cases o with
    | begin u c =>
      rw [ofIObs_begin] at e2
      split at e2
      · rename_i hk
        cases a with
        | cons x a => cases a <;> simp at e2
        | nil =>
          simp only [List.nil_append, List.cons.injEq, Live.Obs.begin.injEq] at e2
          obtain ⟨⟨rfl, e3⟩, rfl⟩ := e2
          cases c with
          | add k g ev md => cases hk; cases e3; exact ⟨_, ev, rfl, .inl rfl, rfl, rfl, rfl, rfl, rfl⟩
          | modify k g ev md => cases hk; cases e3; exact ⟨_, ev, rfl, .inr rfl, rfl, rfl, rfl, rfl, rfl⟩
          | delete k g => cases e3
      · simp at e2
    | ret u c r => cases a <;> simp [Live.ofIObs] at e2
    | deleted u k g p r => cases a <;> simp [Live.ofIObs] at e2
    | waitOk l evs => cases a <;> simp [Live.ofIObs] at e2
    | waitErr e => cases a <;> simp [Live.ofIObs] at e2
    | _ => simp [Live.ofIObs] at e2
  obtain ⟨c0, ev, rfl, hv, rfl, rfl, rfl, rfl, rfl⟩ := hobs
  simp only [List.append_nil, List.nil_append] at ho hb hcl hm
  have hp := progI hv hcl m2 hh (fun hm => hag (List.mem_append_left _ hm)) hb
  have hgood : GoodI m2 s (m2 ++ .begin t c0 :: m1) fd ev mode := by
    rcases hp.mine with ⟨h1, _⟩ | ⟨_, h1⟩ | h1
    · rw [ho] at h1; cases h1
    · exact h1
    · rw [ho] at h1; cases h1
  obtain ⟨p, q, h1, h2, rfl, rfl, h5⟩ := hgood
  refine ⟨p, q, h1, h2, rfl, rfl, rfl, rfl, ?_, ?_⟩
  rotate_left
  · intro u c h1 h2 h3
    have := (hp.others u c h1 h2 h3).2.2
    rw [ho] at this; cases this
  rcases hm with hm | ⟨_, hm1, hm2⟩
  · exact .inl hm
  · cases hf : q.fired with
    | false => exact .inr rfl
    | true =>
      left
      rcases h5 hf with h | h | ⟨h, _⟩
      · exact h
      · rcases h with h | ⟨ks, h, hk⟩
        · exact (hm1 h).elim
        · exact (hm2 ks h hk).elim
      · have hc := (reach_count hh).1
        rw [hph] at hc
        have hfd := reach_found hh w.evs (by rw [hph]; rfl)
        rw [← hfd, show w.evs = [] from hc] at h
        cases h

end Polling.IocpM
