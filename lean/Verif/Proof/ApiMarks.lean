import Verif.Spec.Api

/-
How the portable contract is proved.  The trace of a backend is mapped to visible observations and marks between them: the
points at which a call takes effect, and at which `wait` takes an event from the operating system.  If the marks obey the rules
of `Ok`, the visible part obeys the contract.

A source has up to two parts, since kqueue watches reading (`false`) and writing (`true`) apart.
-/

namespace Polling.Api

inductive Mark where
  | vis (o : Obs)
  | eff (t : Tid) (call : Call) (c : Bool)
  | take (fd : Fd) (c : Bool) (k : Key)
deriving DecidableEq, Repr

/-- The visible part. -/
def erase : List Mark → List Obs
  | [] => []
  | .vis o :: m => o :: erase m
  | _ :: m => erase m

/-- The call in progress. -/
def busy : List Mark → Tid → Option Call
  | [], _ => none
  | .vis (.begin u call) :: m, t => if u = t then some call else busy m t
  | .vis (.ret u _) :: m, t => if u = t then none else busy m t
  | _ :: m, t => busy m t

/-- The call in progress has taken effect on this part. -/
def done : List Mark → Tid → Bool → Bool
  | [], _, _ => false
  | .vis (.begin u _) :: m, t, c => if u = t then false else done m t c
  | .vis (.ret u _) :: m, t, c => if u = t then false else done m t c
  | .eff u _ c' :: m, t, c => if u = t ∧ c' = c then true else done m t c
  | _ :: m, t, c => done m t c

/-- The last call that took effect. -/
def lastEff : List Mark → Fd → Bool → Option Call
  | [], _, _ => none
  | .eff _ call c' :: m, fd, c => if call.fd = fd ∧ c' = c then some call else lastEff m fd c
  | _ :: m, fd, c => lastEff m fd c

/-- No event was taken since. -/
def fresh : List Mark → Fd → Bool → Bool
  | [], _, _ => false
  | .eff _ call c' :: m, fd, c => if call.fd = fd ∧ c' = c then true else fresh m fd c
  | .take fd' c' _ :: m, fd, c => if fd' = fd ∧ c' = c then false else fresh m fd c
  | _ :: m, fd, c => fresh m fd c

/-- The events taken by the `wait` in progress. -/
def pend : List Mark → List (Bool × Key)
  | [] => []
  | .take _ c k :: m => (c, k) :: pend m
  | .vis .waitBegin :: _ => []
  | .vis (.waitOk _) :: _ => []
  | .vis .waitErr :: _ => []
  | _ :: m => pend m

/-- The rules. -/
def Ok (comps : List Bool) (strict once : Prop) (m : List Mark) : Mark → Prop
  | .vis (.begin t _) => busy m t = none
  | .vis (.ret t b) => busy m t ≠ none ∧ (b = true → ∀ c ∈ comps, done m t c = true) ∧
      (strict → b = false → ∀ fd k o, busy m t = some (.set fd k o) → ∀ c, done m t c = false)
  | .vis (.waitOk evs) => (∀ e ∈ evs, ∃ c, (c, e.key) ∈ pend m) ∧
      (once → ∀ k, evs.countP (fun e => e.readable && e.key == k) ≤ (pend m).count (false, k))
  | .vis .waitBegin => True
  | .vis .waitErr => True
  | .eff t call c => busy m t = some call ∧ done m t c = false
  | .take fd c k => c ∈ comps ∧ (∃ o, lastEff m fd c = some (.set fd k o)) ∧ (once → fresh m fd c = true)

inductive WF (comps : List Bool) (strict once : Prop) : List Mark → Prop
  | nil : WF comps strict once []
  | cons {m o} : WF comps strict once m → Ok comps strict once m o → WF comps strict once (o :: m)

theorem WF.tail {comps : List Bool} {strict once : Prop} {a b : List Mark} (h : WF comps strict once (a ++ b)) :
    WF comps strict once b := by
  induction a with
  | nil => exact h
  | cons o a ih => cases h with | cons h _ => exact ih h

theorem WF.at {comps : List Bool} {strict once : Prop} {a b : List Mark} {o : Mark} (h : WF comps strict once (a ++ o :: b)) :
    Ok comps strict once b o := by
  have := h.tail
  cases this with | cons _ h => exact h

theorem erase_append (a b : List Mark) : erase (a ++ b) = erase a ++ erase b := by
  induction a with
  | nil => rfl
  | cons o a ih => cases o <;> simp [erase, ih]

/-- A visible observation comes from a mark. -/
theorem erase_split {m : List Mark} {l2 l1 : List Obs} {o : Obs} (h : erase m = l2 ++ o :: l1) :
    ∃ m2 m1, m = m2 ++ .vis o :: m1 ∧ erase m2 = l2 ∧ erase m1 = l1 := by
  induction m generalizing l2 with
  | nil => cases l2 <;> cases h
  | cons p m ih =>
    have skip : (∀ o, p ≠ .vis o) → ∃ m2 m1, p :: m = m2 ++ .vis o :: m1 ∧ erase m2 = l2 ∧ erase m1 = l1 := by
      intro hp
      have he : ∀ m, erase (p :: m) = erase m := by
        intro m
        cases p with
        | vis o => exact absurd rfl (hp o)
        | eff => rfl
        | take => rfl
      rw [he] at h
      obtain ⟨m2, m1, h1, h2, h3⟩ := ih h
      exact ⟨p :: m2, m1, by rw [h1]; rfl, by rw [he, h2], h3⟩
    cases p with
    | vis q =>
      cases l2 with
      | nil =>
        injection h with h1 h2
        exact ⟨[], m, by rw [h1]; rfl, rfl, h2⟩
      | cons q' l2 =>
        injection h with h1 h2
        obtain ⟨m2, m1, h3, h4, h5⟩ := ih h2
        exact ⟨.vis q :: m2, m1, by rw [h3]; rfl, by simp [erase, h4, h1], h5⟩
    | eff => exact skip (fun _ => nofun)
    | take => exact skip (fun _ => nofun)

/-- The thread neither begins nor ends a call here. -/
def Quiet (t : Tid) (m : List Mark) : Prop := ∀ o ∈ m, (∀ call, o ≠ .vis (.begin t call)) ∧ ∀ b, o ≠ .vis (.ret t b)

theorem busy_split {m : List Mark} {t : Tid} {call : Call} (h : busy m t = some call) :
    ∃ m2 m1, m = m2 ++ .vis (.begin t call) :: m1 ∧ Quiet t m2 := by
  induction m with
  | nil => cases h
  | cons o m ih =>
    have go : (∀ call, o ≠ .vis (.begin t call)) → (∀ b, o ≠ .vis (.ret t b)) → busy m t = some call →
        ∃ m2 m1, o :: m = m2 ++ .vis (.begin t call) :: m1 ∧ Quiet t m2 := by
      intro h1 h2 hb
      obtain ⟨m2, m1, he, hq⟩ := ih hb
      refine ⟨o :: m2, m1, by rw [he]; rfl, ?_⟩
      intro p hp
      rcases List.mem_cons.mp hp with rfl | hp
      · exact ⟨h1, h2⟩
      · exact hq p hp
    cases o with
    | vis o =>
      cases o with
      | begin u call' =>
        simp only [busy] at h
        split at h
        · rename_i hu; cases h; subst hu
          exact ⟨[], m, rfl, nofun⟩
        · rename_i hu
          exact go (fun _ he => by injection he with he; injection he with h1; exact hu h1) (fun _ => nofun) h
      | ret u b =>
        simp only [busy] at h
        split at h
        · cases h
        · rename_i hu
          exact go (fun _ => nofun) (fun _ he => by injection he with he; injection he with h1; exact hu h1) h
      | waitBegin => exact go (fun _ => nofun) (fun _ => nofun) h
      | waitOk _ => exact go (fun _ => nofun) (fun _ => nofun) h
      | waitErr => exact go (fun _ => nofun) (fun _ => nofun) h
    | eff => exact go (fun _ => nofun) (fun _ => nofun) h
    | take => exact go (fun _ => nofun) (fun _ => nofun) h

/-- If a call in progress has taken effect, then since it began. -/
theorem done_split {m : List Mark} {t : Tid} {c : Bool} (h : done m t c = true) :
    ∃ m2 call m1, m = m2 ++ .eff t call c :: m1 ∧ Quiet t m2 := by
  induction m with
  | nil => cases h
  | cons o m ih =>
    have go : (∀ call, o ≠ .vis (.begin t call)) → (∀ b, o ≠ .vis (.ret t b)) → done m t c = true →
        ∃ m2 call m1, o :: m = m2 ++ .eff t call c :: m1 ∧ Quiet t m2 := by
      intro h1 h2 hb
      obtain ⟨m2, call, m1, he, hq⟩ := ih hb
      refine ⟨o :: m2, call, m1, by rw [he]; rfl, ?_⟩
      intro p hp
      rcases List.mem_cons.mp hp with rfl | hp
      · exact ⟨h1, h2⟩
      · exact hq p hp
    cases o with
    | vis o =>
      cases o with
      | begin u call' =>
        simp only [done] at h
        split at h
        · cases h
        · rename_i hu
          exact go (fun _ he => by injection he with he; injection he with h1; exact hu h1) (fun _ => nofun) h
      | ret u b =>
        simp only [done] at h
        split at h
        · cases h
        · rename_i hu
          exact go (fun _ => nofun) (fun _ he => by injection he with he; injection he with h1; exact hu h1) h
      | waitBegin => exact go (fun _ => nofun) (fun _ => nofun) h
      | waitOk _ => exact go (fun _ => nofun) (fun _ => nofun) h
      | waitErr => exact go (fun _ => nofun) (fun _ => nofun) h
    | eff u call' c' =>
      simp only [done] at h
      split at h
      · rename_i hu; obtain ⟨rfl, rfl⟩ := hu
        exact ⟨[], call', m, rfl, nofun⟩
      · exact go (fun _ => nofun) (fun _ => nofun) h
    | take => exact go (fun _ => nofun) (fun _ => nofun) h

theorem lastEff_split {m : List Mark} {fd : Fd} {c : Bool} {call : Call} (h : lastEff m fd c = some call) :
    ∃ m2 t m1, m = m2 ++ .eff t call c :: m1 ∧ call.fd = fd ∧ ∀ u call', .eff u call' c ∈ m2 → call'.fd ≠ fd := by
  induction m with
  | nil => cases h
  | cons o m ih =>
    have go : (∀ u call', o = .eff u call' c → call'.fd ≠ fd) → lastEff m fd c = some call →
        ∃ m2 t m1, o :: m = m2 ++ .eff t call c :: m1 ∧ call.fd = fd ∧ ∀ u call', .eff u call' c ∈ m2 → call'.fd ≠ fd := by
      intro h1 hl
      obtain ⟨m2, t, m1, he, hf, hq⟩ := ih hl
      refine ⟨o :: m2, t, m1, by rw [he]; rfl, hf, ?_⟩
      intro u call' hp
      rcases List.mem_cons.mp hp with hp | hp
      · exact h1 u call' hp.symm
      · exact hq u call' hp
    cases o with
    | vis o => exact go (fun _ _ => nofun) h
    | eff u call' c' =>
      simp only [lastEff] at h
      split at h
      · rename_i hu; obtain ⟨hu, rfl⟩ := hu; cases h
        exact ⟨[], u, m, rfl, hu, nofun⟩
      · rename_i hu
        refine go (fun v call2 he hf => hu ?_) h
        injection he with _ h2 h3
        exact ⟨by rw [h2]; exact hf, h3⟩
    | take => exact go (fun _ _ => nofun) h

/-- Where the call in progress took effect, it has. -/
theorem done_of_eff {m2 m1 : List Mark} {t : Tid} {call : Call} {c : Bool} (h : Quiet t m2) :
    done (m2 ++ .eff t call c :: m1) t c = true := by
  induction m2 with
  | nil => simp [done]
  | cons o m2 ih =>
    have ih := ih (fun p hp => h p (List.mem_cons_of_mem _ hp))
    have h0 := h o List.mem_cons_self
    cases o with
    | vis o =>
      cases o with
      | begin u call' =>
        simp only [List.cons_append, done]
        rw [if_neg, ih]
        rintro rfl; exact h0.1 call' rfl
      | ret u b =>
        simp only [List.cons_append, done]
        rw [if_neg, ih]
        rintro rfl; exact h0.2 b rfl
      | waitBegin => exact ih
      | waitOk _ => exact ih
      | waitErr => exact ih
    | eff u call' c' =>
      simp only [List.cons_append, done]
      split
      · rfl
      · exact ih
    | take => exact ih

/-- The first call to return. -/
theorem outcome_split {l : List Obs} {t : Tid} {b : Bool} (h : outcome t l = some b) :
    ∃ l2 l1, l = l2 ++ .ret t b :: l1 ∧ outcome t l1 = none := by
  induction l with
  | nil => cases h
  | cons o l ih =>
    simp only [outcome] at h
    split at h
    · rename_i b' hb
      cases h
      obtain ⟨l2, l1, h1, h2⟩ := ih hb
      exact ⟨o :: l2, l1, by rw [h1]; rfl, h2⟩
    · rename_i hn
      split at h
      · split at h
        · rename_i hu; cases h; subst hu
          exact ⟨[], l, rfl, hn⟩
        · cases h
      · cases h

theorem outcome_none_append {a b : List Obs} {t : Tid} : outcome t (a ++ b) = none ↔ outcome t a = none ∧ outcome t b = none := by
  induction a with
  | nil => simp [outcome]
  | cons o a ih =>
    simp only [List.cons_append, outcome]
    cases hb : outcome t b with
    | some x =>
      have : outcome t (a ++ b) ≠ none := fun h => by rw [ih] at h; rw [hb] at h; cases h.2
      cases hab : outcome t (a ++ b) with
      | none => exact absurd hab this
      | some y => simp
    | none =>
      rw [hb] at ih
      cases ha : outcome t a with
      | none =>
        have := ih.mpr ⟨ha, rfl⟩
        rw [this]; simp
      | some y =>
        cases hab : outcome t (a ++ b) with
        | none => have := (ih.mp hab).1; rw [ha] at this; cases this
        | some z => simp

theorem outcome_quiet {m : List Mark} {t : Tid} (h : Quiet t m) : outcome t (erase m) = none := by
  cases ho : outcome t (erase m) with
  | none => rfl
  | some b =>
    obtain ⟨l2, l1, he, _⟩ := outcome_split ho
    obtain ⟨m2, m1, rfl, _, _⟩ := erase_split he
    exact absurd rfl ((h (.vis (.ret t b)) (by simp)).2 b)

/-- Until its first return, a thread that is in a call does not begin another. -/
theorem quiet_of_outcome {comps : List Bool} {strict once : Prop} {m2 m1 : List Mark} {t : Tid} {call : Call}
    (h : WF comps strict once (m2 ++ .vis (.begin t call) :: m1)) (ho : outcome t (erase m2) = none) :
    Quiet t m2 ∧ busy (m2 ++ .vis (.begin t call) :: m1) t = some call := by
  induction m2 with
  | nil => exact ⟨nofun, by simp [busy]⟩
  | cons o m2 ih =>
    cases h with
    | cons h hk =>
    have ho' : outcome t (erase m2) = none := by
      cases o with
      | vis o =>
        simp only [erase, outcome] at ho
        cases hx : outcome t (erase m2) with
        | none => rfl
        | some b => rw [hx] at ho; cases ho
      | eff => exact ho
      | take => exact ho
    obtain ⟨hq, hb⟩ := ih h ho'
    have go : (∀ call, o ≠ .vis (.begin t call)) → (∀ b, o ≠ .vis (.ret t b)) → Quiet t (o :: m2) := by
      intro h1 h2 p hp
      rcases List.mem_cons.mp hp with rfl | hp
      · exact ⟨h1, h2⟩
      · exact hq p hp
    cases o with
    | vis o =>
      cases o with
      | begin u call' =>
        have hu : u ≠ t := by
          rintro rfl
          have : busy (m2 ++ .vis (.begin u call) :: m1) u = none := hk
          rw [hb] at this; cases this
        refine ⟨go (fun _ he => by injection he with he; injection he with h1; exact hu h1) (fun _ => nofun), ?_⟩
        simp only [List.cons_append, busy]
        rw [if_neg hu, hb]
      | ret u b =>
        have hu : u ≠ t := by
          rintro rfl
          simp only [erase, outcome, ho', if_true] at ho
          cases ho
        refine ⟨go (fun _ => nofun) (fun _ he => by injection he with he; injection he with h1; exact hu h1), ?_⟩
        simp only [List.cons_append, busy]
        rw [if_neg hu, hb]
      | waitBegin => exact ⟨go (fun _ => nofun) (fun _ => nofun), hb⟩
      | waitOk _ => exact ⟨go (fun _ => nofun) (fun _ => nofun), hb⟩
      | waitErr => exact ⟨go (fun _ => nofun) (fun _ => nofun), hb⟩
    | eff => exact ⟨go (fun _ => nofun) (fun _ => nofun), hb⟩
    | take => exact ⟨go (fun _ => nofun) (fun _ => nofun), hb⟩

/-- An event taken by the `wait` in progress: nothing of the bounds of a `wait` lies in between. -/
theorem pend_split {m : List Mark} {c : Bool} {k : Key} (h : (c, k) ∈ pend m) :
    ∃ m2 fd m1, m = m2 ++ .take fd c k :: m1 ∧ .vis .waitBegin ∉ m2 := by
  induction m with
  | nil => cases h
  | cons o m ih =>
    have go : o ≠ .vis .waitBegin → (c, k) ∈ pend m →
        ∃ m2 fd m1, o :: m = m2 ++ .take fd c k :: m1 ∧ .vis .waitBegin ∉ m2 := by
      intro h1 hp
      obtain ⟨m2, fd, m1, he, hq⟩ := ih hp
      refine ⟨o :: m2, fd, m1, by rw [he]; rfl, ?_⟩
      intro hp
      rcases List.mem_cons.mp hp with hp | hp
      · exact h1 hp.symm
      · exact hq hp
    cases o with
    | vis o =>
      cases o with
      | begin u call' => exact go nofun h
      | ret u b => exact go nofun h
      | waitBegin => cases h
      | waitOk _ => cases h
      | waitErr => cases h
    | eff => exact go nofun h
    | take fd c' k' =>
      rcases List.mem_cons.mp h with h | h
      · cases h; exact ⟨[], fd, m, rfl, nofun⟩
      · exact go nofun h

/-- Two ways to cut a list. -/
theorem append_cut {α : Type} {a b c d : List α} (h : a ++ b = c ++ d) :
    (∃ x, c = a ++ x ∧ b = x ++ d) ∨ (∃ x, a = c ++ x ∧ d = x ++ b) := by
  rcases List.append_eq_append_iff.mp h with ⟨x, h1, h2⟩ | ⟨x, h1, h2⟩
  · exact Or.inl ⟨x, h1, h2⟩
  · exact Or.inr ⟨x, h1, h2⟩

/-- **The rules imply the contract.** -/
theorem conforms_of_WF {comps : List Bool} {strict once : Prop} {m : List Mark} (h : WF comps strict once m) :
    Conforms strict (erase m) := by
  intro later evs earlier he e hem
  obtain ⟨ml, me, rfl, _, rfl⟩ := erase_split he
  have hme : WF comps strict once me := by
    have := h.tail
    cases this with | cons h _ => exact h
  obtain ⟨hk, _⟩ := (show Ok comps strict once me (.vis (.waitOk evs)) from h.at)
  obtain ⟨c, hc⟩ := hk e hem
  obtain ⟨mA, fd, mB, rfl, hA⟩ := pend_split hc
  obtain ⟨hcomp, ⟨o, hl⟩, _⟩ := (show Ok comps strict once mB (.take fd c e.key) from hme.at)
  obtain ⟨mB2, t, mB1, rfl, hfd, hB2⟩ := lastEff_split hl
  have hB : WF comps strict once (mB2 ++ .eff t (.set fd e.key o) c :: mB1) := by
    have := hme.tail
    cases this with | cons h _ => exact h
  obtain ⟨hb, hnd⟩ := (show Ok comps strict once mB1 (.eff t (.set fd e.key o) c) from hB.at)
  obtain ⟨mC, mD, rfl, hC⟩ := busy_split hb
  -- the marks since the call began
  have hsplit : mA ++ .take fd c e.key :: (mB2 ++ .eff t (.set fd e.key o) c :: (mC ++ .vis (.begin t (.set fd e.key o)) :: mD)) =
      (mA ++ .take fd c e.key :: (mB2 ++ .eff t (.set fd e.key o) c :: mC)) ++ .vis (.begin t (.set fd e.key o)) :: mD := by simp
  refine ⟨erase (mA ++ .take fd c e.key :: (mB2 ++ .eff t (.set fd e.key o) c :: mC)), t, fd, o, erase mD, ?_, ?_, ?_⟩
  · rw [hsplit, erase_append]; rfl
  · intro hs ho
    obtain ⟨l2, l1, hl2, hn⟩ := outcome_split ho
    obtain ⟨p2, p1, hp, _, rfl⟩ := erase_split hl2
    -- the return lies after the effect
    have hwf : WF comps strict once (p2 ++ .vis (.ret t false) :: (p1 ++ .vis (.begin t (.set fd e.key o)) :: mD)) := by
      have := hme
      rw [hsplit, hp] at this
      simpa using this
    have hp1 : WF comps strict once (p1 ++ .vis (.begin t (.set fd e.key o)) :: mD) := by
      have := hwf.tail
      cases this with | cons h _ => exact h
    obtain ⟨hq, hbq⟩ := quiet_of_outcome hp1 hn
    have hret := (show Ok comps strict once (p1 ++ .vis (.begin t (.set fd e.key o)) :: mD) (.vis (.ret t false)) from hwf.at).2.2 hs
      rfl fd e.key o hbq c
    -- position of the effect in `p1`
    have hcut : (mA ++ .take fd c e.key :: mB2) ++ (.eff t (.set fd e.key o) c :: mC) = p2 ++ (.vis (.ret t false) :: p1) := by
      rw [← hp]; simp
    rcases append_cut hcut with ⟨x, hx1, hx2⟩ | ⟨x, hx1, hx2⟩
    · -- the return lies before the effect: but the thread was quiet there
      cases x with
      | nil => cases hx2
      | cons y x =>
        injection hx2 with _ hx2
        exact absurd rfl ((hC (.vis (.ret t false)) (by rw [hx2]; simp)).2 false)
    · cases x with
      | nil => cases hx2
      | cons y x =>
        injection hx2 with _ hx2
        have hqx : Quiet t x := fun p hp => hq p (by rw [hx2]; simp [hp])
        have := done_of_eff (m1 := mC ++ .vis (.begin t (.set fd e.key o)) :: mD) (call := .set fd e.key o) (c := c) hqx
        rw [show p1 ++ .vis (.begin t (.set fd e.key o)) :: mD =
          x ++ .eff t (.set fd e.key o) c :: (mC ++ .vis (.begin t (.set fd e.key o)) :: mD) by rw [hx2]; simp] at hret
        rw [this] at hret; cases hret
  · intro m2 m1 hm hw hsup
    obtain ⟨n2, v, call, n1, hm1, hcf, hon1, hov⟩ := hsup
    obtain ⟨l2, l1, hl2, hn⟩ := outcome_split hov
    -- back to marks
    obtain ⟨q2, q1, hq, rfl, hq1⟩ := erase_split hm
    rw [hm1] at hq1
    obtain ⟨r2, r1, rfl, hr2, hr1⟩ := erase_split hq1
    rw [hl2] at hr2
    obtain ⟨s2, s1, rfl, _, hs1⟩ := erase_split hr2
    -- the wait began before the event was taken
    have hwb : .vis .waitBegin ∉ mA := hA
    have hcut : (mA ++ [.take fd c e.key]) ++ (mB2 ++ .eff t (.set fd e.key o) c :: mC) =
        q2 ++ (.vis .waitBegin :: (s2 ++ .vis (.ret v true) :: s1 ++ .vis (.begin v call) :: r1)) := by
      rw [← hq]; simp
    obtain ⟨x, hx2⟩ : ∃ x, mB2 ++ .eff t (.set fd e.key o) c :: mC =
        x ++ (.vis .waitBegin :: (s2 ++ .vis (.ret v true) :: s1 ++ .vis (.begin v call) :: r1)) := by
      rcases append_cut hcut with ⟨x, _, hx2⟩ | ⟨x, hx1, hx2⟩
      · exact ⟨x, hx2⟩
      · cases x with
        | nil => exact ⟨[], by simpa using hx2.symm⟩
        | cons y x =>
          injection hx2 with hy _
          exfalso
          have : Mark.vis .waitBegin ∈ mA ++ [.take fd c e.key] := by rw [hx1, hy]; simp
          rcases List.mem_append.mp this with h | h
          · exact hwb h
          · simp at h
    -- the second call is well-formed
    have hwf : WF comps strict once ((mA ++ [.take fd c e.key]) ++ x ++ .vis .waitBegin :: s2 ++ .vis (.ret v true) :: (s1 ++ .vis (.begin v call) ::
        (r1 ++ .vis (.begin t (.set fd e.key o)) :: mD))) := by
      have := hme
      rw [hsplit] at this
      have e1 : mA ++ .take fd c e.key :: (mB2 ++ .eff t (.set fd e.key o) c :: mC) =
          (mA ++ [.take fd c e.key]) ++ (mB2 ++ .eff t (.set fd e.key o) c :: mC) := by simp
      rw [e1, hx2] at this
      simpa using this
    have hrest : WF comps strict once (s1 ++ .vis (.begin v call) :: (r1 ++ .vis (.begin t (.set fd e.key o)) :: mD)) := by
      have := hwf.tail
      cases this with | cons h _ => exact h
    obtain ⟨hbusy, hdone, _⟩ := (show Ok comps strict once _ (.vis (.ret v true)) from hwf.at)
    rw [← hs1] at hn
    obtain ⟨hqv, hbv⟩ := quiet_of_outcome hrest hn
    have hd := hdone rfl c hcomp
    obtain ⟨d2, call2, d1, hd1, hd2⟩ := done_split hd
    -- the effect of the second call lies in `s1`
    have hin : ∃ y, s1 = d2 ++ .eff v call2 c :: y ∧ d1 = y ++ .vis (.begin v call) :: (r1 ++ .vis (.begin t (.set fd e.key o)) :: mD) := by
      rcases append_cut hd1 with ⟨y, hy1, hy2⟩ | ⟨y, hy1, hy2⟩
      · cases y with
        | nil => cases hy2
        | cons z y =>
          injection hy2 with hz hy2
          exfalso
          exact (hd2 (.vis (.begin v call)) (by rw [hy1, hz]; simp)).1 call rfl
      · cases y with
        | nil => cases hy2
        | cons z y =>
          injection hy2 with hz hy2
          exact ⟨y, by rw [hy1, hz], hy2⟩
    obtain ⟨y, hy1, hy2⟩ := hin
    have heff : busy d1 v = some call2 := by
      have := hrest
      rw [hd1] at this
      exact (show Ok comps strict once d1 (.eff v call2 c) from this.at).1
    have hcall : call2 = call := by
      have hny : outcome v (erase y) = none := by
        rw [hy1, erase_append, outcome_none_append] at hn
        exact hn.2
      have hwfd : WF comps strict once d1 := by
        have := hrest
        rw [hd1] at this
        have := this.tail
        cases this with | cons h _ => exact h
      rw [hy2] at hwfd heff
      have := (quiet_of_outcome hwfd hny).2
      rw [this] at heff; cases heff; rfl
    subst hcall
    -- and so after the effect of ours, since ours had returned
    rw [hy1] at hx2
    have hcut2 : mB2 ++ (.eff t (.set fd e.key o) c :: mC) =
        (x ++ (.vis .waitBegin :: (s2 ++ .vis (.ret v true) :: d2))) ++ (.eff v call2 c :: (y ++ .vis (.begin v call2) :: r1)) := by
      rw [hx2]; simp
    have hnotin : ∀ z, mC = z ++ .vis (.begin v call2) :: r1 → False := by
      intro z hz
      apply hon1
      rw [← hr1]
      exact outcome_quiet (fun p hp => hC p (by rw [hz]; simp [hp]))
    rcases append_cut hcut2 with ⟨z, hz1, hz2⟩ | ⟨z, hz1, hz2⟩
    · cases z with
      | nil =>
        injection hz2 with _ hz2
        exact hnotin y (by simpa using hz2)
      | cons w z =>
        injection hz2 with _ hz2
        exact hnotin (z ++ .eff v call2 c :: y) (by rw [hz2]; simp)
    · cases z with
      | nil =>
        injection hz2 with _ hz2
        exact hnotin y (by simpa using hz2.symm)
      | cons w z =>
        injection hz2 with hw _
        exact hB2 v call2 (by rw [hz1, hw]; simp) hcf

end Polling.Api
