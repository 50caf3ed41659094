import Verif.Model.Ntdll

/-!
C57: on Windows the system functions are looked up once; who has a poller has them.
-/

namespace Polling.C57
open NtdllSpec Ntdll

/-- `n` requests that were granted. -/
def granted : Nat → List (Nat × Result)
  | 0 => []
  | n + 1 => (n, none) :: granted n

/-- The requests of a search that ended with a result. -/
def Outcome (l : List (Nat × Result)) : Result → Prop
  | none => l = granted (FUNCTIONS + 1)
  | some e => ∃ i, i ≤ FUNCTIONS ∧ l = (i, some e) :: granted i

/-- Not in the closure and not reading. -/
def Idle : Pos → Prop
  | .out | .once _ => True
  | _ => False

/-- Idle or about to read. -/
def After : Pos → Prop
  | .out | .once _ | .read _ => True
  | _ => False

/-- Works with a poller. -/
def Uses : Pos → Prop
  | .out => False
  | .once c | .look c _ | .store c _ | .leave c | .read c => c = .use

/-- The thread in the closure. -/
def Runner (v : Option Result) (l : List (Nat × Result)) : Pos → Prop
  | .look _ i => i ≤ FUNCTIONS ∧ l = granted i
  | .store _ r => Outcome l r
  | .leave _ => ∃ r, v = some r ∧ Outcome l r
  | _ => False

/-- What holds, by the state of the `Once`. -/
def Stage (kind : Err → Err) (s : S) (tr : List Obs) : Prop :=
  match s.once with
  | .fresh => lookups tr = [] ∧ (∀ t c r, Obs.got t c r ∉ tr) ∧ s.pollers = false ∧ ∀ t, Idle (s.pc t)
  | .running u => (∀ t c r, Obs.got t c r ∉ tr) ∧ s.pollers = false ∧ Runner s.value (lookups tr) (s.pc u) ∧
      ∀ t, t ≠ u → Idle (s.pc t)
  | .complete => ∃ r, s.value = some r ∧ Outcome (lookups tr) r ∧ (∀ t c q, Obs.got t c q ∈ tr → q = r.map kind) ∧
      (s.pollers = true → r = none) ∧ ∀ t, After (s.pc t)

structure Inv (kind : Err → Err) (s : S) (tr : List Obs) : Prop where
  stage : Stage kind s tr
  uses : ∀ t, Uses (s.pc t) → s.pollers = true
  pollers : s.pollers = true ↔ ready tr

variable {kind : Err → Err}

theorem upd_self (f : Tid → Pos) (t : Tid) (p : Pos) : upd f t p t = p := if_pos rfl
theorem upd_ne (f : Tid → Pos) {t u : Tid} (p : Pos) (h : u ≠ t) : upd f t p u = f u := if_neg h

theorem ready_cons {o : Obs} {tr : List Obs} (h : ∀ t c r, o ≠ .got t c r) : ready (o :: tr) ↔ ready tr := by
  constructor
  · rintro ⟨t, ht⟩
    rcases List.mem_cons.1 ht with ht | ht
    · exact absurd ht.symm (h _ _ _)
    · exact ⟨t, ht⟩
  · rintro ⟨t, ht⟩; exact ⟨t, List.mem_cons_of_mem _ ht⟩

theorem got_cons {o : Obs} {tr : List Obs} (h : ∀ t c r, o ≠ .got t c r) {t c r} : Obs.got t c r ∈ o :: tr ↔ Obs.got t c r ∈ tr := by
  rw [List.mem_cons]
  exact ⟨fun h' => h'.resolve_left fun e => h _ _ _ e.symm, .inr⟩

theorem uses_upd {s : S} (hu : ∀ t, Uses (s.pc t) → s.pollers = true) {t : Tid} {p : Pos} (hp : Uses p → s.pollers = true) :
    ∀ u, Uses (upd s.pc t p u) → s.pollers = true := by
  intro u
  by_cases e : u = t
  · subst e; rw [upd_self]; exact hp
  · rw [upd_ne _ _ e]; exact hu u

theorem inv_step {s s' : S} {tr : List Obs} {a : Act} {o : Obs} (hi : Inv kind s tr) (hs : step kind s a = some (s', o)) :
    Inv kind s' (o :: tr) := by
  cases a with
  | call t c =>
    have main : s.pc t = .out → (c = .use → s.pollers = true) → s' = { s with pc := upd s.pc t (.once c) } → o = .begin t c →
        Inv kind s' (o :: tr) := by
      intro hp hc h1 h2
      subst h1; subst h2
      have hng : ∀ t' c' r', Obs.begin t c ≠ .got t' c' r' := fun _ _ _ h => by cases h
      refine ⟨?_, uses_upd hi.uses hc, by rw [ready_cons hng]; exact hi.pollers⟩
      have hst := hi.stage
      unfold Stage at hst ⊢
      dsimp only
      cases ho : s.once with
      | fresh =>
        rw [ho] at hst
        obtain ⟨h1, h2, h3, h4⟩ := hst
        refine ⟨h1, fun t' c' r' => by rw [got_cons hng]; exact h2 t' c' r', h3, fun u => ?_⟩
        by_cases e : u = t
        · subst e; rw [upd_self]; trivial
        · rw [upd_ne _ _ e]; exact h4 u
      | running w =>
        rw [ho] at hst
        obtain ⟨h2, h3, h4, h5⟩ := hst
        have hwt : w ≠ t := by rintro rfl; rw [hp] at h4; exact h4
        refine ⟨fun t' c' r' => by rw [got_cons hng]; exact h2 t' c' r', h3, ?_, fun u hu => ?_⟩
        · rw [upd_ne _ _ hwt]; exact h4
        · by_cases e : u = t
          · subst e; rw [upd_self]; trivial
          · rw [upd_ne _ _ e]; exact h5 u hu
      | complete =>
        rw [ho] at hst
        obtain ⟨r, h1, h2, h3, h4, h5⟩ := hst
        refine ⟨r, h1, h2, fun t' c' r' => by rw [got_cons hng]; exact h3 t' c' r', h4, fun u => ?_⟩
        by_cases e : u = t
        · subst e; rw [upd_self]; trivial
        · rw [upd_ne _ _ e]; exact h5 u
    unfold step at hs
    dsimp only at hs
    split at hs
    · next hp => cases hs; exact main hp (fun h => by cases h) rfl rfl
    · next hp =>
      split at hs
      · next hpo => cases hs; exact main hp (fun _ => hpo) rfl rfl
      · cases hs
    · cases hs
  | go t fault =>
    have hst := hi.stage
    unfold Stage at hst
    unfold step at hs
    dsimp only at hs
    cases hp : s.pc t with
    | out => rw [hp] at hs; cases hs
    | once c =>
      rw [hp] at hs
      dsimp only at hs
      have hus : c = .use → s.pollers = true := fun e => hi.uses t (by rw [hp]; exact e)
      cases ho : s.once with
      | fresh =>
        rw [ho] at hs hst
        cases hs
        obtain ⟨h1, h2, h3, h4⟩ := hst
        refine ⟨?_, uses_upd hi.uses hus, by rw [ready_cons (by simp)]; exact hi.pollers⟩
        refine ⟨fun t' c' r' => by rw [got_cons (by simp)]; exact h2 t' c' r', h3, ?_, fun u hu => ?_⟩
        · show Runner s.value _ (upd s.pc t _ t)
          rw [upd_self]; exact ⟨Nat.zero_le _, h1⟩
        · show Idle (upd s.pc t _ u)
          rw [upd_ne _ _ hu]; exact h4 u
      | running w => rw [ho] at hs; cases hs
      | complete =>
        rw [ho] at hs hst
        cases hs
        obtain ⟨r, h1, h2, h3, h4, h5⟩ := hst
        refine ⟨?_, uses_upd hi.uses hus, by rw [ready_cons (by simp)]; exact hi.pollers⟩
        unfold Stage
        dsimp only
        refine ⟨r, h1, h2, fun t' c' r' => by rw [got_cons (by simp)]; exact h3 t' c' r', h4, fun u => ?_⟩
        by_cases e : u = t
        · subst e; rw [upd_self]; trivial
        · rw [upd_ne _ _ e]; exact h5 u
    | look c i =>
      have hrun : s.once = .running t := by
        cases ho : s.once with
        | fresh => rw [ho] at hst; have := hst.2.2.2 t; rw [hp] at this; exact this.elim
        | complete => rw [ho] at hst; obtain ⟨r, _, _, _, _, h5⟩ := hst; have := h5 t; rw [hp] at this; exact this.elim
        | running w =>
          rw [ho] at hst
          by_cases e : t = w
          · rw [e]
          · have := hst.2.2.2 t e; rw [hp] at this; exact this.elim
      rw [hrun] at hst
      obtain ⟨h2, h3, h4, h5⟩ := hst
      rw [hp] at h4
      obtain ⟨h41, h42⟩ := h4
      have hus : c = .use → s.pollers = true := fun e => hi.uses t (by rw [hp]; exact e)
      have main : ∀ p q, Runner s.value ((i, q) :: lookups tr) p → (Uses p ↔ c = .use) →
          s' = { s with pc := upd s.pc t p } → o = .looked t i q → Inv kind s' (o :: tr) := by
        intro p q hr hu e1 e2
        subst e1; subst e2
        refine ⟨?_, uses_upd hi.uses (fun h => hus (hu.1 h)), by rw [ready_cons (by simp)]; exact hi.pollers⟩
        unfold Stage
        dsimp only
        rw [hrun]
        refine ⟨fun t' c' r' => by rw [got_cons (by simp)]; exact h2 t' c' r', h3, ?_, fun u hu => ?_⟩
        · rw [upd_self]; exact hr
        · rw [upd_ne _ _ hu]; exact h5 u hu
      rw [hp] at hs
      dsimp only at hs
      split at hs
      · next e => cases hs; exact main (.store c (some e)) (some e) ⟨i, h41, by rw [h42]⟩ Iff.rfl rfl rfl
      · split at hs
        · next hlt => cases hs; exact main (.look c (i + 1)) none ⟨hlt, by rw [h42]; rfl⟩ Iff.rfl rfl rfl
        · next hge =>
          cases hs
          have : i = FUNCTIONS := Nat.le_antisymm h41 (Nat.le_of_not_lt hge)
          subst this
          exact main (.store c none) none (by show _ = _; rw [h42]; rfl) Iff.rfl rfl rfl
    | store c r =>
      have hrun : s.once = .running t := by
        cases ho : s.once with
        | fresh => rw [ho] at hst; have := hst.2.2.2 t; rw [hp] at this; exact this.elim
        | complete => rw [ho] at hst; obtain ⟨r, _, _, _, _, h5⟩ := hst; have := h5 t; rw [hp] at this; exact this.elim
        | running w =>
          rw [ho] at hst
          by_cases e : t = w
          · rw [e]
          · have := hst.2.2.2 t e; rw [hp] at this; exact this.elim
      rw [hrun] at hst
      obtain ⟨h2, h3, h4, h5⟩ := hst
      rw [hp] at h4 hs
      cases hs
      refine ⟨?_, uses_upd hi.uses (fun e => hi.uses t (by rw [hp]; exact e)), by rw [ready_cons (by simp)]; exact hi.pollers⟩
      unfold Stage
      dsimp only
      rw [hrun]
      refine ⟨fun t' c' r' => by rw [got_cons (by simp)]; exact h2 t' c' r', h3, ?_, fun u hu => ?_⟩
      · rw [upd_self]; exact ⟨r, rfl, h4⟩
      · rw [upd_ne _ _ hu]; exact h5 u hu
    | leave c =>
      have hrun : s.once = .running t := by
        cases ho : s.once with
        | fresh => rw [ho] at hst; have := hst.2.2.2 t; rw [hp] at this; exact this.elim
        | complete => rw [ho] at hst; obtain ⟨r, _, _, _, _, h5⟩ := hst; have := h5 t; rw [hp] at this; exact this.elim
        | running w =>
          rw [ho] at hst
          by_cases e : t = w
          · rw [e]
          · have := hst.2.2.2 t e; rw [hp] at this; exact this.elim
      rw [hrun] at hst
      obtain ⟨h2, h3, h4, h5⟩ := hst
      rw [hp] at h4 hs
      obtain ⟨r, hv, hout⟩ := h4
      cases hs
      refine ⟨?_, uses_upd hi.uses (fun e => hi.uses t (by rw [hp]; exact e)), by rw [ready_cons (by simp)]; exact hi.pollers⟩
      refine ⟨r, hv, hout, fun t' c' r' => by rw [got_cons (by simp)]; exact fun h => absurd h (h2 t' c' r'),
        fun h => (by rw [h3] at h; cases h), fun u => ?_⟩
      show After (upd s.pc t _ u)
      by_cases e : u = t
      · subst e; rw [upd_self]; trivial
      · rw [upd_ne _ _ e]
        have := h5 u e
        cases hq : s.pc u <;> rw [hq] at this <;> first | trivial | exact this.elim
    | read c =>
      have hco : s.once = .complete := by
        cases ho : s.once with
        | fresh => rw [ho] at hst; have := hst.2.2.2 t; rw [hp] at this; exact this.elim
        | complete => rfl
        | running w =>
          rw [ho] at hst
          by_cases e : t = w
          · subst e; have := hst.2.2.1; rw [hp] at this; exact this.elim
          · have := hst.2.2.2 t e; rw [hp] at this; exact this.elim
      rw [hco] at hst
      obtain ⟨r, h1, h2, h3, h4, h5⟩ := hst
      rw [hp] at hs
      dsimp only at hs
      rw [h1] at hs
      cases hs
      refine ⟨?_, ?_, ?_⟩
      · unfold Stage
        dsimp only
        rw [hco]
        refine ⟨r, rfl, h2, fun t' c' q hq => ?_, fun h => ?_, fun u => ?_⟩
        · rcases List.mem_cons.1 hq with hq | hq
          · cases hq; rfl
          · exact h3 _ _ _ hq
        · simp only [Bool.or_eq_true, Bool.and_eq_true, decide_eq_true_eq] at h
          rcases h with h | h
          · exact h4 h
          · exact h.2
        · by_cases e : u = t
          · subst e; rw [upd_self]; trivial
          · rw [upd_ne _ _ e]; exact h5 u
      · intro u hu
        simp only [Bool.or_eq_true]
        refine .inl (hi.uses u ?_)
        dsimp only at hu
        by_cases e : u = t
        · subst e; rw [upd_self] at hu; exact hu.elim
        · rw [upd_ne _ _ e] at hu; exact hu
      · simp only [Bool.or_eq_true, Bool.and_eq_true, decide_eq_true_eq]
        constructor
        · rintro (h | ⟨rfl, rfl⟩)
          · obtain ⟨u, hu⟩ := hi.pollers.1 h
            exact ⟨u, List.mem_cons_of_mem _ hu⟩
          · exact ⟨t, List.mem_cons_self ..⟩
        · rintro ⟨u, hu⟩
          rcases List.mem_cons.1 hu with hu | hu
          · right
            have e1 : c = .new := by injection hu with _ h _; exact h.symm
            have e2 : r.map kind = none := by injection hu with _ _ h; exact h.symm
            exact ⟨e1, by cases r with | none => rfl | some _ => cases e2⟩
          · exact .inl (hi.pollers.2 ⟨u, hu⟩)

theorem reach_inv {s tr} (h : Reach kind s tr) : Inv kind s tr := by
  induction h with
  | init => exact ⟨⟨rfl, fun _ _ _ h => (by cases h), rfl, fun _ => trivial⟩, fun _ h => h.elim, ⟨fun h => (by cases h), fun ⟨_, h⟩ => (by cases h)⟩⟩
  | step _ hs ih => exact inv_step ih hs

theorem granted_lt {n : Nat} {q} (h : q ∈ granted n) : q.1 < n ∧ q.2 = none := by
  induction n with
  | zero => cases h
  | succ n ih =>
    rcases List.mem_cons.1 h with h | h
    · subst h; exact ⟨Nat.lt_succ_self n, rfl⟩
    · exact ⟨Nat.lt_succ_of_lt (ih h).1, (ih h).2⟩

theorem granted_mem {n i : Nat} (h : i < n) : (i, none) ∈ granted n := by
  induction n with
  | zero => cases h
  | succ n ih =>
    by_cases e : i = n
    · subst e; exact List.mem_cons_self ..
    · exact List.mem_cons_of_mem _ (ih (by omega))

theorem granted_nodup (n : Nat) : ((granted n).map Prod.fst).Nodup := by
  induction n with
  | zero => exact List.nodup_nil
  | succ n ih =>
    refine List.nodup_cons.2 ⟨fun h => ?_, ih⟩
    obtain ⟨q, hq, e⟩ := List.mem_map.1 h
    have := (granted_lt hq).1
    omega

theorem outcome_nodup {l r} (h : Outcome l r) : (l.map Prod.fst).Nodup := by
  cases r with
  | none => rw [show l = _ from h]; exact granted_nodup _
  | some e =>
    obtain ⟨i, _, rfl⟩ := h
    refine List.nodup_cons.2 ⟨fun h => ?_, granted_nodup i⟩
    obtain ⟨q, hq, e⟩ := List.mem_map.1 h
    have := (granted_lt hq).1
    omega

theorem stage_got {s tr} (h : Reach kind s tr) {t c q} (hg : Obs.got t c q ∈ tr) :
    ∃ r, Outcome (lookups tr) r ∧ (∀ t c q, Obs.got t c q ∈ tr → q = r.map kind) ∧ (s.pollers = true → r = none) := by
  have hst := (reach_inv h).stage
  unfold Stage at hst
  split at hst
  · exact absurd hg (hst.2.1 _ _ _)
  · exact absurd hg (hst.1 _ _ _)
  · obtain ⟨r, _, h2, h3, h4, _⟩ := hst
    exact ⟨r, h2, h3, h4⟩

/-- Whatever the number of threads that make pollers, the OS is asked for each function at most once. -/
theorem asked_once (s : S) (tr : List Obs) (h : Reach kind s tr) : ((lookups tr).map Prod.fst).Nodup := by
  have hst := (reach_inv h).stage
  unfold Stage at hst
  split at hst
  · rw [hst.1]; exact List.nodup_nil
  · obtain ⟨_, _, hr, _⟩ := hst
    unfold Runner at hr
    split at hr
    · rw [hr.2]; exact granted_nodup _
    · exact outcome_nodup hr
    · obtain ⟨_, _, hr⟩ := hr; exact outcome_nodup hr
    · exact hr.elim
  · obtain ⟨r, _, h2, _⟩ := hst; exact outcome_nodup h2

/-- A thread that is to read the functions can: they were written before. -/
theorem written_before_read (s : S) (tr : List Obs) (h : Reach kind s tr) (t : Tid) (c : Caller) (hp : s.pc t = .read c) :
    ∃ s' r, step kind s (.go t none) = some (s', .got t c r) := by
  have hst := (reach_inv h).stage
  have : ∃ r, s.value = some r := by
    unfold Stage at hst
    split at hst
    · have := hst.2.2.2 t; rw [hp] at this; exact this.elim
    · next w _ =>
      by_cases e : t = w
      · subst e; have := hst.2.2.1; rw [hp] at this; exact this.elim
      · have := hst.2.2.2 t e; rw [hp] at this; exact this.elim
    · obtain ⟨r, h1, _⟩ := hst; exact ⟨r, h1⟩
  obtain ⟨r, hr⟩ := this
  unfold step
  dsimp only
  rw [hp]
  dsimp only
  rw [hr]
  exact ⟨_, _, rfl⟩

/-- Everybody gets the same. -/
theorem same_for_all (s : S) (tr : List Obs) (h : Reach kind s tr) (t u : Tid) (c d : Caller) (q r : Result)
    (h1 : Obs.got t c q ∈ tr) (h2 : Obs.got u d r ∈ tr) : q = r := by
  obtain ⟨x, _, hx, _⟩ := stage_got h h1
  rw [hx _ _ _ h1, hx _ _ _ h2]

/-- It is a success exactly if the OS granted every request; otherwise it is the kind of the error of one. -/
theorem what_the_os_said (s : S) (tr : List Obs) (h : Reach kind s tr) (t : Tid) (c : Caller) (q : Result)
    (hg : Obs.got t c q ∈ tr) :
    (q = none ∧ ∀ i, i ≤ FUNCTIONS → (i, none) ∈ lookups tr) ∨
      ∃ i e, (i, some e) ∈ lookups tr ∧ q = some (kind e) ∧ ∀ j, i < j → ∀ r, (j, r) ∉ lookups tr := by
  obtain ⟨x, ho, hx, _⟩ := stage_got h hg
  rw [hx _ _ _ hg]
  cases x with
  | none => exact .inl ⟨rfl, fun i hi => by rw [show lookups tr = _ from ho]; exact granted_mem (Nat.lt_succ_of_le hi)⟩
  | some e =>
    obtain ⟨i, _, hl⟩ := ho
    refine .inr ⟨i, e, by rw [hl]; exact List.mem_cons_self .., rfl, fun j hj r hm => ?_⟩
    rw [hl] at hm
    rcases List.mem_cons.1 hm with hm | hm
    · cases hm; omega
    · have := (granted_lt hm).1
      dsimp only at this
      omega

/-- No operation with a poller fails because the functions could not be loaded: `new` found out before. -/
theorem never_fails_later (s : S) (tr : List Obs) (h : Reach kind s tr) (t : Tid) (r : Result) (hg : Obs.got t .use r ∈ tr) :
    r = none := by
  induction h with
  | init => cases hg
  | @step s tr a s' o hr hs ih =>
    rcases List.mem_cons.1 hg with hg' | hg'
    · subst hg'
      have hi := reach_inv hr
      have hi' := reach_inv (.step hr hs)
      obtain ⟨x, _, hx, hn⟩ := stage_got (.step hr hs) hg
      have hp : s.pollers = true := by
        cases a with
        | call u c =>
          unfold step at hs
          dsimp only at hs
          split at hs
          · cases hs
          · split at hs <;> cases hs
          · cases hs
        | go u fault =>
          unfold step at hs
          dsimp only at hs
          split at hs <;> (try cases hs; done)
          · split at hs <;> cases hs
          · split at hs
            · cases hs
            · split at hs <;> cases hs
          · next c hpc =>
            split at hs
            · cases hs
            · injection hs with hs
              injection hs with _ ho
              injection ho with h1 h2 _
              subst h1; subst h2
              exact hi.uses u (by rw [hpc]; rfl)
      have hp' : s'.pollers = true := by
        obtain ⟨u, hu⟩ := hi.pollers.1 hp
        exact hi'.pollers.2 ⟨u, List.mem_cons_of_mem _ hu⟩
      rw [hx _ _ _ hg, hn hp']; rfl
    · exact ih hg'

/-- No thread is blocked for ever: it can go on, or the one in the closure can. -/
theorem no_deadlock (s : S) (tr : List Obs) (h : Reach kind s tr) (t : Tid) (hp : s.pc t ≠ .out) :
    ∃ u, (u = t ∨ s.once = .running u) ∧ (step kind s (.go u none)).isSome = true := by
  have hst := (reach_inv h).stage
  cases hpc : s.pc t with
  | out => exact absurd hpc hp
  | once c =>
    cases ho : s.once with
    | fresh => exact ⟨t, .inl rfl, by unfold step; dsimp only; rw [hpc]; dsimp only; rw [ho]; rfl⟩
    | complete => exact ⟨t, .inl rfl, by unfold step; dsimp only; rw [hpc]; dsimp only; rw [ho]; rfl⟩
    | running w =>
      refine ⟨w, .inr rfl, ?_⟩
      unfold Stage at hst
      rw [ho] at hst
      obtain ⟨_, _, hr, _⟩ := hst
      unfold step
      dsimp only
      unfold Runner at hr
      split at hr
      · next hw => rw [hw]; dsimp only; split <;> rfl
      · next hw => rw [hw]; rfl
      · next hw => rw [hw]; rfl
      · exact hr.elim
  | look c i => refine ⟨t, .inl rfl, ?_⟩; unfold step; dsimp only; rw [hpc]; dsimp only; split <;> rfl
  | store c r => exact ⟨t, .inl rfl, by unfold step; dsimp only; rw [hpc]; rfl⟩
  | leave c => exact ⟨t, .inl rfl, by unfold step; dsimp only; rw [hpc]; rfl⟩
  | read c =>
    obtain ⟨s', r, hs⟩ := written_before_read s tr h t c hpc
    exact ⟨t, .inl rfl, by rw [hs]; rfl⟩

/-- Runs a list of actions. -/
def run (kind : Err → Err) : List Act → S → List Obs → Option (S × List Obs)
  | [], s, tr => some (s, tr)
  | a :: l, s, tr =>
    match step kind s a with
    | none => none
    | some (s', o) => run kind l s' (o :: tr)

theorem run_reach : ∀ (l : List Act) {s tr s' tr'}, Reach kind s tr → run kind l s tr = some (s', tr') → Reach kind s' tr'
  | [], _, _, _, _, h, e => by cases e; exact h
  | a :: l, s, tr, s', tr', h, e => by
    unfold run at e
    split at e
    · cases e
    · next hs => exact run_reach l (.step h hs) e

/-- Two threads make pollers at the same time; the second waits for the first; then one is used. -/
example : ((run id ([.call 0 .new, .call 1 .new] ++ List.replicate 9 (.go 0 none) ++ [.go 1 none, .go 1 none, .call 1 .use, .go 1 none, .go 1 none])
      init []).map fun r => r.2.filter fun o => match o with | .got .. => true | _ => false) =
    some [.got 1 .use none, .got 1 .new none, .got 0 .new none] := by decide

/-- A failure is kept: the OS refused one function once, and a second `new` fails although the OS is not asked again. -/
theorem failure_is_kept : ∃ s tr, Reach id s (.got 0 .new (some (.os 127)) :: tr) ∧ Obs.got 0 .new (some (.os 127)) ∈ tr ∧
    lookups tr = [(1, some (.os 127)), (0, none)] := by
  have h : ∀ (l : List Act) s o tr, run id l init [] = some (s, o :: tr) → Reach id s (o :: tr) := fun l s o tr h => run_reach l .init h
  let acts : List Act := [.call 0 .new, .go 0 none, .go 0 none, .go 0 (some (.os 127)), .go 0 none, .go 0 none, .go 0 none,
    .call 0 .new, .go 0 none, .go 0 none]
  have hl : (run id acts init []).map (·.2) = some [.got 0 .new (some (.os 127)), .tau, .begin 0 .new, .got 0 .new (some (.os 127)),
      .tau, .tau, .looked 0 1 (some (.os 127)), .looked 0 0 none, .tau, .begin 0 .new] := by decide
  cases hr : run id acts init [] with
  | none => rw [hr] at hl; cases hl
  | some p =>
    obtain ⟨s, tr⟩ := p
    rw [hr] at hl
    injection hl with hl
    dsimp only at hl
    subst hl
    exact ⟨s, _, h acts s _ _ hr, by decide, rfl⟩

end Polling.C57
