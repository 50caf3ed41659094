import Verif.Proof.IocpWait

/-! Registration calls act on the registration of their source. -/

namespace Polling.IocpM
open Iocp IocpSpec

theorem ident_dropEntries (c : Core) (batch p) : ident ((dropEntries c batch).pk p) = ident (c.pk p) := by
  unfold dropEntries
  induction batch generalizing c with
  | nil => rfl
  | cons q l ih =>
    rw [List.foldl_cons, ih]
    by_cases e : p = q
    · subst e; rw [dropEntry_pkt]; split <;> simp [*, ident]
    · rw [(dropEntry_frame c q).2.2.2.2.2 p e]

theorem ident_update (fault c p q) : ident ((update fault c p).2.1.pk q) = ident (c.pk q) := by
  by_cases e : q = p
  · subst e; rw [update_pkt]; split <;> simp [*, ident, (updateSock_frame _ _).1, (updateWtb_frame _ _).1]
  · rw [(update_frame fault c p).2.2.2.2.2 q e]

theorem ident_feed (c p q) : ident ((feed c p).2.pk q) = ident (c.pk q) := by
  by_cases e : q = p
  · subst e
    rcases feed_cases c q with ⟨s, r, e1, e2, e3, e4⟩ | ⟨s, r, e1, e2, e3, e4, e5⟩ | ⟨s, r, e1, e2, e3, e4, e5⟩ | ⟨w, e1, e5⟩ | ⟨e, e1, e2⟩ |
      ⟨e1, e2⟩ | ⟨e1, e2⟩
    · rw [e4, setPk_self, e1]; rfl
    · rw [e5, setPk_self, e1]; rfl
    · rw [e5, setPk_self, e1]; simp only [ident]; rw [(filterEvent_frame ..).1]; rfl
    · rw [e5, setPk_self, e1]; simp only [ident]; split <;> rfl
    · rw [e2]
    · rw [e2]
    · rw [e2]
  · rw [(feed_frame c p).2.2.2.2.2 q e]

/-- A packet keeps its source. -/
theorem ident_eff {c o c' x} (hlow : ∀ p, c.next ≤ p → c.pk p = .free) (he : Eff c o c') (p : PId) (h : ident (c.pk p) = some x) :
    ident (c'.pk p) = some x := by
  have hne : p ≠ c.next := by
    intro e; subst e; rw [hlow _ (Nat.le_refl _)] at h; cases h
  cases he with
  | quiet h1 _ _ _ => rw [h1]; exact h
  | insert _ h1 _ _ _ => rw [h1]; dsimp only; rw [if_neg hne]; exact h
  | remove _ h1 _ _ => rw [h1]; exact h
  | @set t k fd q ev mode _ =>
    by_cases e : p = q
    · subst e; rw [← h]; unfold setEvents; split <;> simp [*, setPk, ident, setEventsSock]
    · rw [← h]; congr 1
      unfold setEvents; split
      · exact setPk_other _ _ e
      · exact setPk_other _ _ e
      · rfl
  | @del t k fd q fault =>
    by_cases e : p = q
    · subst e
      rcases beginDelete_pkt fault c p with ⟨s, s', e1, e2, f1, _⟩ | ⟨w, w', e1, e2, f1, _⟩ | ⟨e1, e2, _⟩
      · rw [e2]; rw [e1] at h; simp only [ident] at *; rw [f1]; exact h
      · rw [e2]; rw [e1] at h; simp only [ident] at *; rw [f1]; exact h
      · rw [e2]; exact h
    · rw [(beginDelete_frame fault c q).2.2.2.2.2 p e]; exact h
  | update _ => rw [ident_update]; exact h
  | feed _ _ => rw [ident_feed]; exact h
  | feedQuiet _ _ => rw [ident_feed]; exact h
  | drop _ => rw [ident_dropEntries]; exact h
  | packet h1 _ _ _ => rw [h1]; dsimp only; rw [if_neg hne]; exact h
  | @complete _ q k mask cancelling r hp hop hr hpk _ _ =>
    rw [hpk]
    by_cases e : p = q
    · subst e; rw [setPk_self]; rw [hp] at h; exact h
    · rw [setPk_other _ _ e]; exact h
  | @wtb _ q w status hp hpk _ _ =>
    rw [hpk]
    by_cases e : p = q
    · subst e; rw [setPk_self]; rw [hp] at h; exact h
    · rw [setPk_other _ _ e]; exact h

/-- The packet a call looked up. -/
def Pc.looked : Pc → Option (Call × PId)
  | .set c p | .del c p => some (c, p)
  | _ => none

theorem step_looked {threads s a s' o} (hs : step threads s a = some (s', o)) (t : Tid) (call : Call) (p : PId)
    (h : (s'.pc t).looked = some (call, p)) :
    (s.pc t).looked = some (call, p) ∨ s.c.table (callSock call) (callFd call) = some p := by
  have hup : ∀ (u : Tid) (x : Pc), s'.pc = upd s.pc u x → x.looked = none → (s.pc t).looked = some (call, p) := by
    intro u x e hx
    rw [e] at h
    by_cases e' : t = u
    · subst e'; rw [upd_self, hx] at h; cases h
    · rw [upd_other _ _ e'] at h; exact h
  cases a with
  | call u c =>
    simp only [step] at hs
    split at hs
    · cases hs
    split at hs
    · split at hs
      · cases hs
      split at hs
      · cases hs; exact .inl h
      split at hs
      · cases hs; exact .inl h
      cases hs
      refine .inl (hup u _ rfl ?_)
      split <;> rfl
    · cases hs
  | go u fault =>
    simp only [step, goCall] at hs
    split at hs
    · cases hs
    split at hs
    · split at hs <;> (cases hs; exact .inl (hup u _ rfl rfl))
    · split at hs
      · split at hs
        · cases hs; exact .inl (hup u _ rfl rfl)
        · cases hs; exact .inl (hup u _ rfl rfl)
      · split at hs
        · cases hs; exact .inl (hup u _ rfl rfl)
        · rename_i ht; cases hs
          dsimp only at h
          by_cases e' : t = u
          · subst e'; rw [upd_self] at h; cases h; exact .inr ht
          · rw [upd_other _ _ e'] at h; exact .inl h
      · split at hs
        · cases hs; exact .inl (hup u _ rfl rfl)
        · rename_i ht; cases hs
          dsimp only at h
          by_cases e' : t = u
          · subst e'; rw [upd_self] at h; cases h; exact .inr ht
          · rw [upd_other _ _ e'] at h; exact .inl h
    · split at hs
      · cases hs; refine .inl (hup u _ rfl ?_); split <;> rfl
      · cases hs
    · cases hs; exact .inl (hup u _ rfl rfl)
    · split at hs <;> (cases hs; exact .inl (hup u _ rfl rfl))
    · cases hs; exact .inl (hup u _ rfl rfl)
    · cases hs
  | wait fault =>
    simp only [step, goWait, waitFail] at hs
    repeat' split at hs
    all_goals cases hs
    all_goals exact .inl h
  | notifyCas u =>
    simp only [step] at hs
    repeat' split at hs
    all_goals cases hs
    · exact .inl h
    · exact .inl (hup u _ rfl rfl)
  | notifyPost u fault =>
    simp only [step] at hs
    repeat' split at hs
    all_goals cases hs
    · exact .inl (hup u _ rfl rfl)
    · exact .inl (hup u _ rfl rfl)
  | _ =>
    simp only [step] at hs
    repeat' split at hs
    all_goals cases hs
    all_goals exact .inl h

/-- A call that looked up a packet found one of its source. -/
theorem reach_own {threads P s tr} (h : Reach threads P s tr) : ∀ t call p, (s.pc t).looked = some (call, p) →
    ident (s.c.pk p) = some (callSock call, callFd call) := by
  induction h with
  | init => intro t call p h; cases h
  | @step s tr a s' o hr _ hs ih =>
    intro t call p hl
    have hti := reach_ti hr
    refine ident_eff hti.low (reach_eff hr hs) p ?_
    rcases step_looked hs t call p hl with h | h
    · exact ih t call p h
    · exact hti.ids _ _ _ h

/-- The packet of a registration in the history. -/
theorem reg_ident {tr c} (h : TI tr c) {p k fd} (hi : ident (c.pk p) = some (k, fd)) : ∃ q, reg tr p = some q ∧ q.sock = k ∧ q.fd = fd := by
  have := h.regs p
  cases hp : c.pk p with
  | socket s => rw [hp] at this hi; cases hi; obtain ⟨q, a, b, d, _⟩ := this; exact ⟨q, a, b, d⟩
  | waitable w => rw [hp] at this hi; cases hi; obtain ⟨q, a, b, d, _⟩ := this; exact ⟨q, a, b, d⟩
  | _ => rw [hp] at hi; cases hi

theorem ident_reg {tr c} (h : TI tr c) {p q} (hr : reg tr p = some q) : ident (c.pk p) = some (q.sock, q.fd) := by
  have := h.regs p
  rw [hr] at this
  cases hp : c.pk p with
  | socket s => rw [hp] at this; obtain ⟨q', a, b, d, _⟩ := this; cases a; simp [ident, b, d]
  | waitable s => rw [hp] at this; obtain ⟨q', a, b, d, _⟩ := this; cases a; simp [ident, b, d]
  | _ => rw [hp] at this; cases this

/-- `modify` and `delete` act on a registration of their own source. -/
theorem change_own {threads P s tr a s' o} (h : Reach threads P s tr) (hs : step threads s a = some (s', o)) :
    (∀ t k fd p ev mode, o = .changed t k fd p ev mode → ∃ q, reg tr p = some q ∧ q.sock = k ∧ q.fd = fd) ∧
    (∀ t k fd p r, o = .deleted t k fd p r → ∃ q, reg tr p = some q ∧ q.sock = k ∧ q.fd = fd) := by
  have hown := reach_own h
  have hti := reach_ti h
  cases a with
  | go u fault =>
    simp only [step, goCall] at hs
    split at hs
    · cases hs
    split at hs
    · split at hs <;> (cases hs; exact ⟨nofun, nofun⟩)
    · repeat' split at hs
      all_goals (cases hs; exact ⟨nofun, nofun⟩)
    · rename_i call p hpc
      split at hs
      · cases hs
        refine ⟨?_, nofun⟩
        intro t k fd p' ev mode he
        cases he
        exact reg_ident hti (hown u _ _ (by rw [hpc]; rfl))
      · cases hs
    · rename_i call p hpc
      cases hs
      refine ⟨nofun, ?_⟩
      intro t k fd p' r he
      cases he
      exact reg_ident hti (hown u _ _ (by rw [hpc]; rfl))
    · split at hs <;> (rename_i hu; have hob := uobs_ustep hu; cases hs
                       exact ⟨by intro _ _ _ _ _ _ he; subst he; exact absurd hob id, by intro _ _ _ _ _ he; subst he; exact absurd hob id⟩)
    · cases hs; exact ⟨nofun, nofun⟩
    · cases hs
  | wait fault =>
    simp only [step, goWait] at hs
    split at hs
    · cases hs; exact ⟨nofun, nofun⟩
    · cases hs; exact ⟨nofun, nofun⟩
    · split at hs <;> (cases hs; exact ⟨nofun, nofun⟩)
    · rename_i q _
      have hob := uobs_updateObs q
      split at hs <;> (cases hs; rename_i m _; have hob := hob m
                       exact ⟨by intro _ _ _ _ _ _ he; rw [he] at hob; exact absurd hob id, by intro _ _ _ _ _ he; rw [he] at hob; exact absurd hob id⟩)
    · cases hs; exact ⟨nofun, nofun⟩
    · unfold waitFail at hs; split at hs <;> (cases hs; exact ⟨nofun, nofun⟩)
    · unfold waitFail at hs; split at hs <;> (cases hs; exact ⟨nofun, nofun⟩)
    · cases hs; exact ⟨nofun, nofun⟩
    · split at hs
      · cases hs; exact ⟨nofun, nofun⟩
      · cases hs; exact ⟨nofun, nofun⟩
      · cases hs; exact ⟨nofun, nofun⟩
      · cases hs; exact ⟨nofun, nofun⟩
      · rename_i ev _ _; cases ev <;> (cases hs; exact ⟨nofun, nofun⟩)
    · split at hs
      · rename_i hu; have hob := uobs_ustep hu; cases hs
        exact ⟨by intro _ _ _ _ _ _ he; subst he; exact absurd hob id, by intro _ _ _ _ _ he; subst he; exact absurd hob id⟩
      · rename_i hu; have hob := uobs_ustep hu; cases hs
        exact ⟨by intro _ _ _ _ _ _ he; subst he; exact absurd hob id, by intro _ _ _ _ _ he; subst he; exact absurd hob id⟩
      · rename_i hu; have hob := uobs_ustep hu; cases hs
        exact ⟨by intro _ _ _ _ _ _ he; subst he; exact absurd hob id, by intro _ _ _ _ _ he; subst he; exact absurd hob id⟩
    · cases hs; exact ⟨nofun, nofun⟩
    · cases hs
  | _ =>
    simp only [step] at hs
    repeat' split at hs
    all_goals cases hs
    all_goals exact ⟨nofun, nofun⟩

/-- A registration is in the table, or was taken out of it. -/
theorem reach_listed {threads P s tr} (h : Reach threads P s tr) : ∀ p q, reg tr p = some q →
    registered tr q.sock q.fd = some p ∨ ∃ t, .removed t q.sock q.fd p ∈ tr := by
  induction h with
  | init => intro p q h; cases h
  | @step s tr a s' o hr _ hs ih =>
    have hti := reach_ti hr
    have he := reach_eff hr hs
    have hti' := ti_eff hti he
    have same : (∀ q p, reg (o :: tr) p = some q → ∃ q', reg tr p = some q' ∧ q'.sock = q.sock ∧ q'.fd = q.fd) →
        registered (o :: tr) = registered tr → ∀ p q, reg (o :: tr) p = some q →
        registered (o :: tr) q.sock q.fd = some p ∨ ∃ t, .removed t q.sock q.fd p ∈ o :: tr := by
      intro h1 h2 p q h3
      obtain ⟨q', h4, h5, h6⟩ := h1 q p h3
      rw [h2, ← h5, ← h6]
      rcases ih p q' h4 with h | ⟨t, h⟩
      · exact .inl h
      · exact .inr ⟨t, List.mem_cons_of_mem _ h⟩
    have mapd : ∀ (x : PId) (f : Reg → Reg), (∀ q, (f q).sock = q.sock ∧ (f q).fd = q.fd) →
        (∀ p, reg (o :: tr) p = if p = x then (reg tr p).map f else reg tr p) →
        ∀ q p, reg (o :: tr) p = some q → ∃ q', reg tr p = some q' ∧ q'.sock = q.sock ∧ q'.fd = q.fd := by
      intro x f hf h1 q p h2
      rw [h1] at h2
      split at h2
      · rw [Option.map_eq_some_iff] at h2
        obtain ⟨q', h3, rfl⟩ := h2
        exact ⟨q', h3, (hf q').1.symm, (hf q').2.symm⟩
      · exact ⟨q, h2, rfl, rfl⟩
    generalize ho : o = o' at he
    generalize s'.c = c' at he hti'
    cases he with
    | @insert _ t k fd ev mode ht hpk hn htab hok =>
      subst ho
      intro p q h
      simp only [reg] at h
      split at h
      · rename_i e; cases h
        left; simp [registered, e]
      · rename_i e
        rcases ih p q h with h' | ⟨t', h'⟩
        · left
          simp only [registered]
          rw [if_neg]
          · exact h'
          · rintro ⟨e1, e2⟩
            rw [hti.tab, e1, e2, ht] at h'; cases h'
        · exact .inr ⟨t', List.mem_cons_of_mem _ h'⟩
    | @remove _ t k fd p0 ht hpk hn htab =>
      subst ho
      intro p q h
      simp only [reg] at h
      rcases ih p q h with h' | ⟨t', h'⟩
      · by_cases e : q.sock = k ∧ q.fd = fd
        · right
          obtain ⟨e1, e2⟩ := e
          rw [hti.tab, e1, e2, ht] at h'
          cases h'
          exact ⟨t, by rw [e1, e2]; simp⟩
        · left; simp only [registered]; rw [if_neg e]; exact h'
      · exact .inr ⟨t', List.mem_cons_of_mem _ h'⟩
    | @set t k fd p ev mode _ => subst ho; exact same (mapd p _ (by intro q; exact ⟨rfl, rfl⟩) (fun _ => rfl)) rfl
    | @del t k fd p fault => subst ho; exact same (mapd p _ (by intro q; exact ⟨rfl, rfl⟩) (fun _ => rfl)) rfl
    | @feed p k fd ev o2 hf ho2 =>
      subst ho
      cases ev with
      | none => subst ho2; exact same (fun q p h => ⟨q, h, rfl, rfl⟩) rfl
      | some ev => subst ho2; exact same (mapd p _ (by intro q; exact ⟨rfl, rfl⟩) (fun _ => rfl)) rfl
    | quiet _ _ _ hq => subst ho; exact same (fun q p h => ⟨q, by rw [← reg_quiet hq]; exact h, rfl, rfl⟩) (registered_quiet hq)
    | update hq => subst ho; exact same (fun q p h => ⟨q, by rw [← reg_quiet hq]; exact h, rfl, rfl⟩) (registered_quiet hq)
    | feedQuiet _ hq => subst ho; exact same (fun q p h => ⟨q, by rw [← reg_quiet hq]; exact h, rfl, rfl⟩) (registered_quiet hq)
    | drop hq => subst ho; exact same (fun q p h => ⟨q, by rw [← reg_quiet hq]; exact h, rfl, rfl⟩) (registered_quiet hq)
    | packet _ _ _ _ => subst ho; exact same (fun q p h => ⟨q, h, rfl, rfl⟩) rfl
    | complete _ _ _ _ _ _ => subst ho; exact same (fun q p h => ⟨q, h, rfl, rfl⟩) rfl
    | wtb _ _ _ _ => subst ho; exact same (fun q p h => ⟨q, h, rfl, rfl⟩) rfl

/-- A socket is never registered with the reserved key. -/
theorem reach_key {threads P s tr} (h : Reach threads P s tr) : ∀ p q, reg tr p = some q → q.sock = true → q.ev.key ≠ NOTIFY_KEY := by
  induction h with
  | init => intro p q h; cases h
  | @step s tr a s' o hr _ hs ih =>
    have hch := (change_own hr hs).1
    have he := reach_eff hr hs
    intro p q hq hk
    generalize ho : o = o' at he
    generalize s'.c = c' at he
    cases he with
    | @insert _ t k fd ev mode ht hpk hn htab hok =>
      subst ho
      simp only [reg] at hq
      split at hq
      · cases hq
        dsimp only at hk
        subst hk
        intro e
        simp only [okCall, reserved, Bool.and_eq_true, Bool.not_eq_true', beq_eq_false_iff_ne] at hok
        exact hok.2 e
      · exact ih p q hq hk
    | @set t k fd p' ev mode hok =>
      subst ho
      simp only [reg] at hq
      split at hq
      · rename_i e; subst e
        obtain ⟨q', h1, h2, h3⟩ := hch t k fd p ev mode rfl
        rw [h1] at hq
        cases hq
        dsimp only at hk
        rw [h2] at hk
        subst hk
        intro e
        simp only [okCall, reserved, Bool.and_eq_true, Bool.not_eq_true', beq_eq_false_iff_ne] at hok
        exact hok.2 e
      · exact ih p q hq hk
    | @del t k fd p' fault =>
      subst ho
      simp only [reg] at hq
      split at hq
      · rw [Option.map_eq_some_iff] at hq
        obtain ⟨q', h3, rfl⟩ := hq
        exact ih p q' h3 hk
      · exact ih p q hq hk
    | @feed p' k fd ev o2 hf ho2 =>
      subst ho
      subst ho2
      cases ev with
      | none => exact ih p q hq hk
      | some ev =>
        simp only [reg] at hq
        split at hq
        · rw [Option.map_eq_some_iff] at hq
          obtain ⟨q', h3, rfl⟩ := hq
          exact ih p q' h3 hk
        · exact ih p q hq hk
    | quiet _ _ _ h => subst ho; rw [reg_quiet h] at hq; exact ih p q hq hk
    | update h => subst ho; rw [reg_quiet h] at hq; exact ih p q hq hk
    | feedQuiet _ h => subst ho; rw [reg_quiet h] at hq; exact ih p q hq hk
    | drop h => subst ho; rw [reg_quiet h] at hq; exact ih p q hq hk
    | _ => subst ho; exact ih p q hq hk

/-- A custom packet received. -/
theorem received_inv {n s a s' p ev} (hs : step n s a = some (s', .received p ev)) :
    ∃ w batch, s.phase = .feed w (p :: batch) ∧ (feed s.c p).1 = .custom ev := by
  cases a with
  | wait fault =>
    simp only [step, goWait] at hs
    split at hs
    · cases hs
    · cases hs
    · split at hs <;> cases hs
    · split at hs <;> (injection hs with hs; injection hs with _ hs; unfold updateObs at hs; split at hs <;> cases hs)
    · cases hs
    · unfold waitFail at hs; split at hs <;> cases hs
    · unfold waitFail at hs; split at hs <;> cases hs
    · cases hs
    · rename_i w p' batch hph
      split at hs
      · cases hs
      · cases hs
      · rename_i ev' c hf; cases hs; exact ⟨w, batch, hph, by rw [hf]⟩
      · cases hs
      · rename_i k fd ev' c _; cases ev' <;> cases hs
    · split at hs
      · rename_i hu; cases hs; exact absurd (uobs_ustep hu) id
      · rename_i hu; cases hs; exact absurd (uobs_ustep hu) id
      · rename_i hu; cases hs; exact absurd (uobs_ustep hu) id
    · cases hs
    · cases hs
  | go t fault =>
    simp only [step, goCall] at hs
    repeat' split at hs
    all_goals try cases hs
    all_goals (rename_i hu; exact absurd (uobs_ustep hu) id)
  | _ =>
    simp only [step] at hs
    repeat' split at hs
    all_goals cases hs

/-- Delivered events do not have the local-close condition. -/
theorem deliver_clean {n P s tr a s' k fd p ev} (h : Reach n P s tr) (hs : step n s a = some (s', .deliver k fd p ev)) : buildable ev = true := by
  have hc := reach_clean h p
  have he := reach_eff h hs
  generalize ho : IObs.deliver k fd p ev = o at he
  generalize s'.c = c' at he
  cases he with
  | @feed p' k' fd' ev' o hf ho' =>
    subst ho'
    cases ev' with
    | none => cases ho
    | some ev' =>
      dsimp only at ho
      injection ho with h1 h2 h3 h4
      subst h1 h2 h3 h4
      rcases feed_cases s.c p with ⟨s, r, e1, e2, e3, e4⟩ | ⟨s, r, e1, e2, e3, e4, e5⟩ | ⟨s, r, e1, e2, e3, e4, e5⟩ | ⟨w, e1, e5⟩ | ⟨e, e1, e2⟩ |
        ⟨e1, e2⟩ | ⟨e1, e2⟩
      · rw [e4] at hf; cases hf
      · rw [e5] at hf; cases hf
      · rw [e5] at hf
        injection hf with f1 f2 f3
        rw [e1] at hc
        obtain ⟨i1, _⟩ := filterEvent_some f3
        have : ev.extra = (rawEvent s.interest.key r).extra := by rw [i1]
        unfold buildable
        rw [this]
        unfold rawEvent
        have hz : ((0#32 : BitVec 32) &&& LOCAL_CLOSE == 0#32) = true := by decide
        repeat' split
        · exact hz
        · exact hz
        · have := hc.2.2 _ _ e2
          unfold NoClose at this
          dsimp only
          rw [this]; rfl
        · exact hz
      · rw [e5] at hf
        injection hf with f1 f2 f3
        cases f3
        rw [e1] at hc
        exact hc
      · rw [e2] at hf; cases hf
      · rw [e2] at hf; cases hf
      · rw [e2] at hf; cases hf
  | quiet _ _ _ hq => subst ho; exact absurd hq id
  | update hq => subst ho; exact absurd hq id
  | feedQuiet _ hq => subst ho; exact absurd hq id
  | drop hq => subst ho; exact absurd hq id
  | _ => cases ho

end Polling.IocpM
