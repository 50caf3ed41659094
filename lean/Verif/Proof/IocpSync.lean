import Verif.Proof.IocpCov

/-! What the status of a socket says about its operation, and when a registration is being deleted. -/

namespace Polling.IocpM
open Iocp IocpSpec

/-- The status of a socket says what operation there is. -/
def Fits : Pkt → Prop
  | .socket k =>
    match k.status with
    | .idle => k.op = .none ∧ k.inUse = false
    | .polling f => k.op = .inFlight f false ∨ ∃ r, k.op = .done r
    | .cancelled => (∃ f, k.op = .inFlight f true) ∨ ∃ r, k.op = .done r
  | _ => True

theorem fits_cancel {k f} (h : Fits (.socket k)) (hst : k.status = .polling f) : Fits (.socket (cancel none k).2) := by
  simp only [Fits, hst] at h
  unfold cancel
  simp only [Fits]
  rcases h with h | ⟨r, h⟩ <;> rw [h]
  · exact .inl ⟨_, rfl⟩
  · exact .inr ⟨_, rfl⟩

theorem fits_update {c p} (h : Fits (c.pk p)) (q : PId) (hq : Fits (c.pk q)) : Fits ((update none c p).2.1.pk q) := by
  by_cases e : q = p
  · subst e
    rw [update_pkt]
    split
    · rename_i k hk
      rw [hk] at h
      unfold updateSock
      split
      · exact h
      split
      · rename_i f hst
        split
        · exact fits_cancel h hst
        · exact h
      · exact h
      · rename_i hst
        simp only [Fits, hst] at h
        unfold startPoll
        dsimp only
        split
        · rename_i hu; rw [h.2] at hu; cases hu
        · simp [Fits]
    · trivial
    · exact h
  · rw [(update_frame none c p).2.2.2.2.2 q e]; exact hq

theorem fits_ustep {fault c u c' out o} (hf : Calm fault u) (h : ∀ q, Fits (c.pk q)) (hu : ustep fault c u = (c', out, o)) (q : PId) : Fits (c'.pk q) := by
  cases u with
  | load p => simp only [ustep] at hu; cases hu; exact h q
  | run p => cases hf.none nofun; simp only [ustep] at hu; cases hu; exact fits_update (h p) q (h q)
  | push p => simp only [ustep] at hu; split at hu <;> (cases hu; exact h q)
  | pop p n => simp only [ustep] at hu; split at hu <;> (cases hu; exact h q)
  | drain p n r => cases hf.none nofun; simp only [ustep] at hu; cases hu; exact fits_update (h r) q (h q)

theorem fits_step {n P s tr a s' o} (hr : Reach n P s tr) (hnd : ∀ w e b, s.phase ≠ .drain w e b) (hA : Accepts s a) (hs : step n s a = some (s', o))
    (ih : ∀ x, Fits (s.c.pk x)) (x : PId) : Fits (s'.c.pk x) := by
  have hhold := reach_holder hr
  have keep : s'.c.pk = s.c.pk → Fits (s'.c.pk x) := fun h => by rw [h]; exact ih x
  cases a with
  | call t call =>
    simp only [step] at hs
    repeat' split at hs
    all_goals cases hs
    all_goals exact keep rfl
  | go t fault =>
    simp only [step, goCall] at hs
    split at hs
    · cases hs
    split at hs
    · split at hs <;> (cases hs; exact keep rfl)
    · split at hs
      · split at hs
        · cases hs; exact keep rfl
        · cases hs
          dsimp only
          by_cases e : x = s.c.next
          · subst e; rw [setPk_self]; unfold newPkt; split
            · exact ⟨rfl, rfl⟩
            · trivial
          · rw [setPk_other _ _ e]; exact ih x
      · split at hs <;> (cases hs; exact keep rfl)
      · split at hs <;> (cases hs; exact keep rfl)
    · rename_i call p hpc
      split at hs
      · cases hs
        dsimp only
        by_cases e : x = p
        · subst e
          have := ih x
          unfold setEvents
          split
          · rename_i k hk; rw [hk] at this; dsimp only; rw [setPk_self]; exact this
          · dsimp only; rw [setPk_self]; trivial
          · exact this
        · rw [(setEvents_frame _ _ _ _).2.2.2.2.2 x e]; exact ih x
      · cases hs
    · rename_i call p hpc
      have hfault : fault = none := by
        cases fault with
        | none => rfl
        | some e => rcases hA with ⟨c, hc⟩ | ⟨c, q, hc⟩ <;> (rw [hpc] at hc; cases hc)
      subst hfault
      cases hs
      dsimp only
      by_cases e : x = p
      · subst e
        have := ih x
        unfold beginDelete
        dsimp only
        split
        · rename_i k hk; rw [hk] at this
          split
          · rw [hk]; exact this
          · split
            · rename_i f hst
              rw [setPk_self]; exact fits_cancel (k := { k with waitingOnDelete := true }) this hst
            · rw [setPk_self]; exact this
        · rw [setPk_self]; trivial
        · exact this
      · rw [(beginDelete_frame none s.c p).2.2.2.2.2 x e]; exact ih x
    · rename_i call u hpc
      have hcalm := accepts_calm hA hpc
      split at hs
      · rename_i hu; cases hs; exact fits_ustep hcalm ih hu x
      · rename_i hu; cases hs; exact fits_ustep hcalm ih hu x
    · cases hs; exact keep rfl
    · cases hs
  | wait fault =>
    have hfault : fault = none := by
      cases fault with
      | none => rfl
      | some e => exact absurd hA id
    subst hfault
    simp only [step, goWait] at hs
    split at hs
    · cases hs; exact keep rfl
    · cases hs; exact keep rfl
    · split at hs <;> (cases hs; exact keep rfl)
    · rename_i w q hph
      have := fits_update (ih q) x (ih x)
      split at hs <;> (rename_i he; rw [he] at this; cases hs; exact this)
    · cases hs; exact keep rfl
    · unfold waitFail at hs
      split at hs <;> (cases hs; exact keep rfl)
    · rename_i hph; exact absurd hph (hnd _ _ _)
    · rename_i hph; exact absurd hph (hnd _ _ _)
    · rename_i w p batch hph
      have : Fits ((feed s.c p).2.pk x) := by
        by_cases e : x = p
        · subst e
          have hx := ih x
          rcases feed_cases s.c x with ⟨k, r, e1, e2, e3, e4⟩ | ⟨k, r, e1, e2, e3, e4, e5⟩ | ⟨k, r, e1, e2, e3, e4, e5⟩ | ⟨w, e1, e5⟩ | ⟨e, e1, e2⟩ |
            ⟨e1, e2⟩ | ⟨e1, e2⟩
          · rw [e4, setPk_self]; exact ⟨rfl, rfl⟩
          · rw [e5, setPk_self]; exact ⟨rfl, rfl⟩
          · rw [e5, setPk_self]
            unfold filterEvent
            dsimp only
            repeat' split
            all_goals exact ⟨rfl, rfl⟩
          · rw [e5, setPk_self]; trivial
          · rw [e2]; exact hx
          · rw [e2]; exact hx
          · rw [e2]; exact hx
        · rw [(feed_frame s.c p).2.2.2.2.2 x e]; exact ih x
      split at hs <;> (rename_i he; rw [he] at this; cases hs; exact this)
    · rename_i w batch u ev hph
      have hids : ∀ y, u.holds y → ident (s.c.pk y) ≠ none := fun y hy => hhold y (.inr (.inr (by rw [hph]; exact hy)))
      split at hs
      · rename_i hu; cases hs; exact fits_ustep calm_coherent ih hu x
      · rename_i hu; cases hs; exact fits_ustep calm_coherent ih hu x
      · rename_i hu; exact absurd hu (fun hu => ustep_accepts calm_coherent hids hu)
    · cases hs; exact keep rfl
    · cases hs
  | newPacket _ =>
    simp only [step] at hs; split at hs
    · cases hs
    · cases hs
      dsimp only
      by_cases e : x = s.c.next
      · subst e; rw [setPk_self]; trivial
      · rw [setPk_other _ _ e]; exact ih x
  | complete p r =>
    simp only [step] at hs
    split at hs
    · rename_i k hk
      split at hs
      · rename_i mask cancelling hop
        split at hs
        · cases hs
          dsimp only
          by_cases e : x = p
          · subst e
            rw [setPk_self]
            have := ih x
            rw [hk] at this
            simp only [Fits] at this ⊢
            split at this
            · rw [hop] at this; cases this.1
            · exact .inr ⟨r, rfl⟩
            · exact .inr ⟨r, rfl⟩
          · rw [setPk_other _ _ e]; exact ih x
        · cases hs
      · cases hs
    · cases hs
  | fire p =>
    simp only [step] at hs
    split at hs
    · split at hs
      · cases hs
        dsimp only
        by_cases e : x = p
        · subst e; rw [setPk_self]; trivial
        · rw [setPk_other _ _ e]; exact ih x
      · cases hs
    · cases hs
  | callback p =>
    simp only [step] at hs
    split at hs
    · split at hs
      · cases hs
        dsimp only
        by_cases e : x = p
        · subst e; rw [setPk_self]; trivial
        · rw [setPk_other _ _ e]; exact ih x
      · cases hs
    · cases hs
  | post _ _ => simp only [step] at hs; repeat' split at hs
                all_goals cases hs
                all_goals exact keep rfl
  | notifyCas _ => simp only [step] at hs; repeat' split at hs
                   all_goals cases hs
                   all_goals exact keep rfl
  | notifyPost _ _ => simp only [step] at hs; repeat' split at hs
                      all_goals cases hs
                      all_goals exact keep rfl
  | waitBegin _ _ => simp only [step] at hs; repeat' split at hs
                     all_goals cases hs
                     all_goals exact keep rfl
  | waitBusy => simp only [step] at hs; repeat' split at hs
                all_goals cases hs
                all_goals exact keep rfl
  | get => simp only [step] at hs; repeat' split at hs
           all_goals cases hs
           all_goals exact keep rfl
  | getFail _ => simp only [step] at hs; repeat' split at hs
                 all_goals cases hs
                 all_goals exact keep rfl
  | decide _ => simp only [step] at hs; repeat' split at hs
                all_goals cases hs
                all_goals exact keep rfl
  | callbackPost _ _ => simp only [step] at hs; repeat' split at hs
                        all_goals cases hs
                        all_goals exact keep rfl

theorem reach_fits {n P s tr} (hP : ∀ s a, P s a → Accepts s a) (h : Reach n P s tr) : ∀ x, Fits (s.c.pk x) := by
  induction h with
  | init =>
    intro x
    show Fits (if x = NOTIFIER then Pkt.wakeup else Pkt.free)
    split <;> trivial
  | @step s tr a s' o hr hp hs ih => exact fits_step hr (noFail (accepts_noFail hP) hr) (hP _ _ hp) hs ih

/-- The packet is being deleted. -/
def deleting : Pkt → Bool
  | .socket k => k.waitingOnDelete
  | _ => false

theorem deleting_update (fault c p q) : deleting ((update fault c p).2.1.pk q) = deleting (c.pk q) := by
  by_cases e : q = p
  · subst e
    rw [update_pkt]
    split
    · rename_i k hk; rw [hk]; exact (updateSock_frame fault k).2.2.2.2
    · rename_i w hw; rw [hw]; rfl
    · rfl
  · rw [(update_frame fault c p).2.2.2.2.2 q e]

theorem deleting_dropEntries (c : Core) (batch q) : deleting ((dropEntries c batch).pk q) = deleting (c.pk q) := by
  unfold dropEntries
  induction batch generalizing c with
  | nil => rfl
  | cons p l ih =>
    rw [List.foldl_cons, ih]
    by_cases e : q = p
    · subst e; rw [dropEntry_pkt]; split <;> simp [*, deleting]
    · rw [(dropEntry_frame c p).2.2.2.2.2 q e]

theorem deleting_feed (c p q) : deleting ((feed c p).2.pk q) = deleting (c.pk q) := by
  by_cases e : q = p
  · subst e
    rcases feed_cases c q with ⟨s, r, e1, e2, e3, e4⟩ | ⟨s, r, e1, e2, e3, e4, e5⟩ | ⟨s, r, e1, e2, e3, e4, e5⟩ | ⟨w, e1, e5⟩ | ⟨e, e1, e2⟩ |
      ⟨e1, e2⟩ | ⟨e1, e2⟩
    · rw [e4, setPk_self, e1]; rfl
    · rw [e5, setPk_self, e1]; rfl
    · rw [e5, setPk_self, e1]
      unfold filterEvent
      dsimp only
      repeat' split
      all_goals rfl
    · rw [e5, setPk_self, e1]; rfl
    · rw [e2]
    · rw [e2]
    · rw [e2]
  · rw [(feed_frame c p).2.2.2.2.2 q e]

/-- Only the end of `delete` marks a packet as being deleted. -/
theorem deleting_eff {c o c'} (he : Eff c o c') (q : PId) (h : deleting (c'.pk q) = true) :
    deleting (c.pk q) = true ∨ ∃ t k fd r, o = .deleted t k fd q r := by
  cases he with
  | quiet h1 _ _ _ => rw [h1] at h; exact .inl h
  | insert _ h1 _ _ _ =>
    rw [h1] at h; dsimp only at h
    split at h
    · unfold newPkt at h; split at h <;> cases h
    · exact .inl h
  | remove _ h1 _ _ => rw [h1] at h; exact .inl h
  | @set t k fd p ev mode _ =>
    left
    by_cases e : q = p
    · subst e
      revert h
      unfold setEvents
      split
      · rename_i k hk; dsimp only; rw [setPk_self, hk]; exact id
      · rename_i k hk; dsimp only; rw [setPk_self, hk]; exact id
      · exact id
    · rw [(setEvents_frame _ _ _ _).2.2.2.2.2 q e] at h; exact h
  | @del t k fd p fault =>
    by_cases e : q = p
    · subst e; exact .inr ⟨_, _, _, _, rfl⟩
    · rw [(beginDelete_frame fault c p).2.2.2.2.2 q e] at h; exact .inl h
  | update _ => rw [deleting_update] at h; exact .inl h
  | feed _ _ => rw [deleting_feed] at h; exact .inl h
  | feedQuiet _ _ => rw [deleting_feed] at h; exact .inl h
  | drop _ => rw [deleting_dropEntries] at h; exact .inl h
  | packet h1 _ _ _ =>
    rw [h1] at h; dsimp only at h
    split at h
    · cases h
    · exact .inl h
  | @complete _ p k mask cancelling r hp hop hr hpk _ _ =>
    left
    rw [hpk] at h
    by_cases e : q = p
    · subst e; rw [setPk_self] at h; rw [hp]; exact h
    · rw [setPk_other _ _ e] at h; exact h
  | @wtb _ p w status hp hpk _ _ =>
    left
    rw [hpk] at h
    by_cases e : q = p
    · subst e; rw [setPk_self] at h; cases h
    · rw [setPk_other _ _ e] at h; exact h

/-- The table only gets new packets. -/
theorem table_eff {c o c'} (he : Eff c o c') (k fd p) (h : c'.table k fd = some p) :
    c.table k fd = some p ∨ p = c.next := by
  cases he with
  | quiet _ _ h1 _ => rw [h1] at h; exact .inl h
  | insert _ _ _ h1 _ =>
    rw [h1] at h; dsimp only at h
    split at h
    · cases h; exact .inr rfl
    · exact .inl h
  | remove _ _ _ h1 =>
    rw [h1] at h; dsimp only at h
    split at h
    · cases h
    · exact .inl h
  | set _ => rw [(setEvents_frame _ _ _ _).2.2.2.2.1] at h; exact .inl h
  | del => rw [(beginDelete_frame _ _ _).2.1] at h; exact .inl h
  | update _ => rw [(update_frame _ _ _).2.1] at h; exact .inl h
  | feed _ _ => rw [(feed_frame _ _).2.1] at h; exact .inl h
  | feedQuiet _ _ => rw [(feed_frame _ _).2.1] at h; exact .inl h
  | drop _ => rw [(dropEntries_rest _ _).2.2] at h; exact .inl h
  | packet _ _ h1 _ => rw [h1] at h; exact .inl h
  | complete _ _ _ _ _ h1 => rw [h1] at h; exact .inl h
  | wtb _ _ _ h1 => rw [h1] at h; exact .inl h

/-- Position right before the end of `delete`. -/
def Pc.del? : Pc → Option PId
  | .del _ p => some p
  | _ => none

theorem step_del {n P s tr a s' o} (hr : Reach n P s tr) (hs : step n s a = some (s', o)) :
    (∀ t p, (s'.pc t).del? = some p → (s.pc t).del? = some p ∨ ∀ k fd, s'.c.table k fd ≠ some p) ∧
    (∀ t k fd p r, o = .deleted t k fd p r → (s.pc t).del? = some p) := by
  have hti := reach_ti hr
  have hup : ∀ (u : Tid) (x : Pc), s'.pc = upd s.pc u x → x.del? = none → ∀ t p, (s'.pc t).del? = some p →
      (s.pc t).del? = some p ∨ ∀ k fd, s'.c.table k fd ≠ some p := by
    intro u x e hx t p h
    rw [e] at h
    by_cases e' : t = u
    · subst e'; rw [upd_self, hx] at h; cases h
    · rw [upd_other _ _ e'] at h; exact .inl h
  have same : s'.pc = s.pc → ∀ t p, (s'.pc t).del? = some p → (s.pc t).del? = some p ∨ ∀ k fd, s'.c.table k fd ≠ some p := by
    intro e t p h; rw [e] at h; exact .inl h
  cases a with
  | call u c =>
    simp only [step] at hs
    split at hs
    · cases hs
    split at hs
    · split at hs
      · cases hs
      split at hs
      · cases hs; exact ⟨same rfl, nofun⟩
      split at hs
      · cases hs; exact ⟨same rfl, nofun⟩
      cases hs
      refine ⟨hup u _ rfl ?_, nofun⟩
      split <;> rfl
    · cases hs
  | go u fault =>
    simp only [step, goCall] at hs
    split at hs
    · cases hs
    split at hs
    · split at hs <;> (cases hs; exact ⟨hup u _ rfl rfl, nofun⟩)
    · split at hs
      · split at hs <;> (cases hs; exact ⟨hup u _ rfl rfl, nofun⟩)
      · split at hs <;> (cases hs; exact ⟨hup u _ rfl rfl, nofun⟩)
      · rename_i k fd hpc
        split at hs
        · cases hs; exact ⟨hup u _ rfl rfl, nofun⟩
        · rename_i p ht; cases hs
          refine ⟨?_, nofun⟩
          intro t q h
          dsimp only at h ⊢
          by_cases e' : t = u
          · subst e'; rw [upd_self] at h; cases h
            right
            intro k' fd' h'
            split at h'
            · cases h'
            · rename_i hne
              have h1 := hti.ids _ _ _ h'
              have h2 := hti.ids _ _ _ ht
              rw [h1] at h2; cases h2
              exact hne ⟨rfl, rfl⟩
          · rw [upd_other _ _ e'] at h; exact .inl h
    · split at hs
      · cases hs; refine ⟨hup u _ rfl ?_, nofun⟩; split <;> rfl
      · cases hs
    · rename_i call p hpc
      cases hs
      refine ⟨hup u _ rfl rfl, ?_⟩
      intro t k fd q r he
      cases he
      rw [hpc]; rfl
    · split at hs
      · rename_i hu; have hob := uobs_ustep hu; cases hs
        exact ⟨hup u _ rfl rfl, by intro _ _ _ _ _ he; subst he; exact absurd hob id⟩
      · rename_i hu; have hob := uobs_ustep hu; cases hs
        exact ⟨hup u _ rfl rfl, by intro _ _ _ _ _ he; subst he; exact absurd hob id⟩
    · cases hs; exact ⟨hup u _ rfl rfl, nofun⟩
    · cases hs
  | wait fault =>
    have h2 : ∀ t k fd p r, o = .deleted t k fd p r → (s.pc t).del? = some p := by
      intro t k fd p r he
      obtain ⟨q, hq, _, _⟩ := (change_own hr hs).2 t k fd p r he
      subst he
      exfalso
      simp only [step, goWait] at hs
      split at hs
      · cases hs
      · cases hs
      · split at hs <;> cases hs
      · rename_i q' _
        split at hs
        · rename_i m _
          have := uobs_updateObs q' m
          injection hs with hs; injection hs with h1 h2; rw [h2] at this; exact this
        · rename_i m _
          have := uobs_updateObs q' m
          injection hs with hs; injection hs with h1 h2; rw [h2] at this; exact this
      · cases hs
      · unfold waitFail at hs; split at hs <;> cases hs
      · unfold waitFail at hs; split at hs <;> cases hs
      · cases hs
      · split at hs
        · cases hs
        · cases hs
        · cases hs
        · cases hs
        · rename_i ev _ _; cases ev <;> cases hs
      · split at hs
        · rename_i hu; have hob := uobs_ustep hu; cases hs; exact hob
        · rename_i hu; have hob := uobs_ustep hu; cases hs; exact hob
        · rename_i hu; have hob := uobs_ustep hu; cases hs; exact hob
      · cases hs
      · cases hs
    refine ⟨same ?_, h2⟩
    clear h2
    simp only [step, goWait, waitFail] at hs
    repeat' split at hs
    all_goals cases hs
    all_goals rfl
  | notifyCas u =>
    simp only [step] at hs
    repeat' split at hs
    all_goals cases hs
    · exact ⟨same rfl, nofun⟩
    · exact ⟨hup u _ rfl rfl, nofun⟩
  | notifyPost u fault =>
    simp only [step] at hs
    repeat' split at hs
    all_goals cases hs
    · exact ⟨hup u _ rfl rfl, nofun⟩
    · exact ⟨hup u _ rfl rfl, nofun⟩
  | _ =>
    simp only [step] at hs
    repeat' split at hs
    all_goals cases hs
    all_goals exact ⟨same rfl, nofun⟩

/-- A registration that is being deleted is no longer in the table. -/
theorem reach_gone {n P s tr} (h : Reach n P s tr) :
    (∀ t p, (s.pc t).del? = some p → ∀ k fd, s.c.table k fd ≠ some p) ∧
    (∀ p, deleting (s.c.pk p) = true → ∀ k fd, s.c.table k fd ≠ some p) := by
  induction h with
  | init => exact ⟨nofun, fun _ _ => nofun⟩
  | @step s tr a s' o hr hp hs ih =>
    obtain ⟨i1, i2⟩ := ih
    obtain ⟨d1, d2⟩ := step_del hr hs
    have hti := reach_ti hr
    have he := reach_eff hr hs
    have hown := reach_own hr
    have stay : ∀ p, ident (s.c.pk p) ≠ none → (∀ k fd, s.c.table k fd ≠ some p) → ∀ k fd, s'.c.table k fd ≠ some p := by
      intro p hi hn k fd h
      rcases table_eff he k fd p h with h | h
      · exact hn k fd h
      · subst h; rw [hti.low _ (Nat.le_refl _)] at hi; exact hi rfl
    constructor
    · intro t p h
      rcases d1 t p h with h | h
      · refine stay p ?_ (i1 t p h)
        have : ∃ call, (s.pc t).looked = some (call, p) := by
          cases hpc : s.pc t <;> rw [hpc] at h <;> cases h
          exact ⟨_, rfl⟩
        obtain ⟨call, hc⟩ := this
        rw [hown t call p hc]; nofun
      · exact h
    · intro p h
      rcases deleting_eff he p h with h | ⟨t, k, fd, r, ho⟩
      · refine stay p ?_ (i2 p h)
        cases hpk : s.c.pk p <;> rw [hpk] at h <;> first | cases h | nofun
      · have hd := d2 t k fd p r ho
        refine stay p ?_ (i1 t p hd)
        have : ∃ call, (s.pc t).looked = some (call, p) := by
          cases hpc : s.pc t <;> rw [hpc] at hd <;> cases hd
          exact ⟨_, rfl⟩
        obtain ⟨call, hc⟩ := this
        rw [hown t call p hc]; nofun

/-- An operation is only started for a packet without one. -/
theorem update_polled {fault c p m} (h : (update fault c p).2.2 = some m) :
    ∃ k, c.pk p = .socket k ∧ k.inUse = false ∧ k.status = .idle ∧ k.waitingOnDelete = false ∧ m = k.mask ∧
      (update fault c p).2.1.pk p = .socket { k with inUse := true, status := .polling m, op := .inFlight m false } := by
  unfold update at h ⊢
  split at h
  · rename_i k hk
    dsimp only at h ⊢
    rw [hk]
    rw [setPk_self]
    unfold updateSock at h ⊢
    split at h
    · cases h
    rename_i hw
    rw [if_neg hw]
    split at h
    · split at h <;> cases h
    · cases h
    · rename_i hst
      unfold startPoll at h ⊢
      dsimp only at h ⊢
      split at h
      · cases h
      rename_i hu
      rw [if_neg hu]
      split at h
      · cases h
        exact ⟨k, rfl, by simpa using hu, hst, by simpa using hw, rfl, rfl⟩
      · split at h <;> cases h
  · cases h
  · cases h

theorem updateObs_polled {q m p m'} (h : updateObs q m = .polled p m') : q = p ∧ m = some m' := by
  unfold updateObs at h; split at h
  · cases h; exact ⟨rfl, rfl⟩
  · cases h

theorem ustep_polled {fault c u c' out p m} (hu : ustep fault c u = (c', out, .polled p m)) :
    (update fault c p).2.2 = some m ∧ c' = (update fault c p).2.1 := by
  cases u with
  | load p => simp only [ustep] at hu; cases hu
  | run q =>
    simp only [ustep] at hu
    injection hu with h1 h2; injection h2 with h2 h3
    obtain ⟨rfl, h4⟩ := updateObs_polled h3
    exact ⟨h4, h1.symm⟩
  | push p => simp only [ustep] at hu; split at hu <;> cases hu
  | pop p n => simp only [ustep] at hu; split at hu <;> cases hu
  | drain p n q =>
    simp only [ustep] at hu
    injection hu with h1 h2; injection h2 with h2 h3
    obtain ⟨rfl, h4⟩ := updateObs_polled h3
    exact ⟨h4, h1.symm⟩

theorem step_polled {n s a s' p m} (hs : step n s a = some (s', .polled p m)) :
    ∃ fault, (update fault s.c p).2.2 = some m ∧ s'.c = (update fault s.c p).2.1 := by
  cases a with
  | go t fault =>
    refine ⟨fault, ?_⟩
    simp only [step] at hs
    split at hs
    · cases hs
    unfold goCall at hs
    split at hs
    case _ => split at hs <;> cases hs
    case _ => repeat' split at hs
              all_goals cases hs
    case _ => split at hs <;> cases hs
    case _ => cases hs
    case _ =>
      split at hs
      · rename_i hu; injection hs with hs; injection hs with h1 h2; subst h1 h2; exact ustep_polled hu
      · rename_i hu; injection hs with hs; injection hs with h1 h2; subst h1 h2; exact ustep_polled hu
    case _ => cases hs
    case _ => cases hs
  | wait fault =>
    simp only [step, goWait] at hs
    split at hs
    · cases hs
    · cases hs
    · split at hs <;> cases hs
    · split at hs
      · rename_i he
        injection hs with hs; injection hs with h1 h2
        obtain ⟨rfl, h4⟩ := updateObs_polled h2
        subst h1; refine ⟨fault, ?_⟩; rw [he]; exact ⟨h4, rfl⟩
      · rename_i he
        injection hs with hs; injection hs with h1 h2
        obtain ⟨rfl, h4⟩ := updateObs_polled h2
        subst h1; refine ⟨fault, ?_⟩; rw [he]; exact ⟨h4, rfl⟩
    · cases hs
    · unfold waitFail at hs; split at hs <;> cases hs
    · unfold waitFail at hs; split at hs <;> cases hs
    · cases hs
    · split at hs
      · cases hs
      · cases hs
      · cases hs
      · cases hs
      · rename_i ev _ _; cases ev <;> cases hs
    · split at hs
      · rename_i hu; injection hs with hs; injection hs with h1 h2; subst h1 h2; exact ⟨_, ustep_polled hu⟩
      · rename_i hu; injection hs with hs; injection hs with h1 h2; subst h1 h2; exact ⟨_, ustep_polled hu⟩
      · rename_i hu; injection hs with hs; injection hs with h1 h2; subst h1 h2; exact ⟨_, ustep_polled hu⟩
    · cases hs
    · cases hs
  | _ =>
    simp only [step] at hs
    repeat' split at hs
    all_goals cases hs

/-- A thread puts an update into the queue only while `polling` is not set: it did not lose the time between looking at the
flag and the queue to a `wait` that begins. -/
def NoRace : S → Act → Prop
  | s, .go t _ => ∀ call p, s.pc t = .upd call (.push p) → s.c.polling = false
  | _, _ => True

/-- Without that race, nothing is in the queue while a thread waits at the port. -/
theorem reach_norace {n P s tr} (hP : ∀ s a, P s a → NoRace s a) (h : Reach n P s tr) : ∀ w, s.phase = .port w → s.c.pending = [] := by
  induction h with
  | init => nofun
  | @step s tr a s' o hr hp hs ih =>
    have hp := hP _ _ hp
    have hpol := reach_polling hr
    intro w hph
    have keep : s'.phase = s.phase → s'.c.pending = s.c.pending → s'.c.pending = [] := by
      intro h1 h2; rw [h2]; exact ih w (by rw [← h1, hph])
    cases a with
    | go t fault =>
      simp only [step] at hs
      split at hs
      · cases hs
      unfold goCall at hs
      split at hs
      case _ => split at hs <;> (cases hs; exact keep rfl rfl)
      case _ => repeat' split at hs
                all_goals cases hs
                all_goals exact keep rfl rfl
      case _ =>
        split at hs
        · cases hs; exact keep rfl (setEvents_frame _ _ _ _).1
        · cases hs
      case _ => cases hs; exact keep rfl (beginDelete_frame _ _ _).2.2.1
      case _ call u hpc =>
        have key : ∀ c' out o', ustep fault s.c u = (c', out, o') → s.phase = .port w → c'.pending = [] := by
          intro c' out o' hu hph'
          have h0 := ih w hph'
          cases u with
          | load p => simp only [ustep] at hu; cases hu; exact h0
          | run p => simp only [ustep] at hu; cases hu; rw [(update_frame _ _ _).2.2.1]; exact h0
          | push p =>
            have := hp call p hpc
            rw [hpol, hph'] at this; cases this
          | pop p m =>
            simp only [ustep] at hu; split at hu
            · rename_i heq; rw [h0] at heq; cases heq
            · cases hu; exact h0
          | drain p m q => simp only [ustep] at hu; cases hu; rw [(update_frame _ _ _).2.2.1]; exact h0
        split at hs
        · rename_i hu; cases hs; exact key _ _ _ hu hph
        · rename_i hu; cases hs; exact key _ _ _ hu hph
      case _ => cases hs; exact keep rfl rfl
      case _ => cases hs
    | wait fault =>
      simp only [step, goWait] at hs
      split at hs
      · cases hs; cases hph
      · cases hs; cases hph
      · split at hs
        · cases hs; cases hph
        · rename_i h0; cases hs; exact h0
      · split at hs <;> (cases hs; cases hph)
      · cases hs; cases hph
      · unfold waitFail at hs; split at hs <;> (cases hs; cases hph)
      · unfold waitFail at hs; split at hs <;> (cases hs; cases hph)
      · cases hs; cases hph
      · split at hs <;> (cases hs; cases hph)
      · split at hs
        · cases hs; cases hph
        · cases hs; cases hph
        · cases hs; cases hph
      · cases hs; cases hph
      · cases hs
    | callbackPost p fault =>
      simp only [step] at hs
      repeat' split at hs
      all_goals cases hs
      all_goals exact keep rfl rfl
    | _ =>
      simp only [step] at hs
      repeat' split at hs
      all_goals cases hs
      all_goals first | exact keep rfl rfl | cases hph

/-- Only `threads` threads make calls. -/
theorem reach_threads {n P s tr} (h : Reach n P s tr) : ∀ t, t ≥ n → s.pc t = .out := by
  induction h with
  | init => intro _ _; rfl
  | @step s tr a s' o hr hp hs ih =>
    intro t ht
    have hup : ∀ (u : Tid) (x : Pc), s'.pc = upd s.pc u x → ¬ u ≥ n → s'.pc t = .out := by
      intro u x e hu
      rw [e, upd_other _ _ (by omega)]; exact ih t ht
    have same : s'.pc = s.pc → s'.pc t = .out := by intro e; rw [e]; exact ih t ht
    cases a with
    | call u c =>
      simp only [step] at hs
      split at hs
      · cases hs
      rename_i hu
      repeat' split at hs
      all_goals cases hs
      all_goals first | exact same rfl | exact hup u _ rfl hu
    | go u fault =>
      simp only [step, goCall] at hs
      split at hs
      · cases hs
      rename_i hu
      repeat' split at hs
      all_goals cases hs
      all_goals exact hup u _ rfl hu
    | notifyCas u =>
      simp only [step] at hs
      split at hs
      · cases hs
      rename_i hu
      repeat' split at hs
      all_goals cases hs
      · exact same rfl
      · exact hup u _ rfl hu
    | notifyPost u fault =>
      by_cases hu : u ≥ n
      · simp only [step, ih u hu] at hs; cases hs
      simp only [step] at hs
      repeat' split at hs
      all_goals cases hs
      all_goals exact hup u _ rfl hu
    | wait fault =>
      refine same ?_
      simp only [step, goWait, waitFail] at hs
      repeat' split at hs
      all_goals cases hs
      all_goals rfl
    | _ =>
      refine same ?_
      simp only [step] at hs
      repeat' split at hs
      all_goals cases hs
      all_goals rfl

end Polling.IocpM
