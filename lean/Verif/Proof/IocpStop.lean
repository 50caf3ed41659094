import Verif.Proof.IocpSync
import Verif.Proof.IocpWtb

/-! IOCP: what is left of a deleted socket, and what the OS does for a waitable handle. -/

namespace Polling.IocpM
open Iocp IocpSpec

/-- A socket that is being deleted is not polled for. -/
def Stopped : Pkt → Prop
  | .socket k => k.waitingOnDelete = true → ∀ f, k.status ≠ .polling f
  | _ => True

theorem stopped_update {fault c p q} (h : Stopped (c.pk q)) : Stopped ((update fault c p).2.1.pk q) := by
  by_cases e : q = p
  · subst e
    rw [update_pkt]
    split
    · rename_i k hk
      rw [hk] at h
      intro hw
      have hw' : k.waitingOnDelete = true := by rw [← (updateSock_frame fault k).2.2.2.2]; exact hw
      unfold updateSock
      rw [if_pos hw']
      exact h hw'
    · trivial
    · exact h
  · rw [(update_frame fault c p).2.2.2.2.2 q e]; exact h

theorem stopped_feed {c p q} (h : Stopped (c.pk q)) : Stopped ((feed c p).2.pk q) := by
  by_cases e : q = p
  · subst e
    rcases feed_cases c q with ⟨s, r, e1, e2, e3, e4⟩ | ⟨s, r, e1, e2, e3, e4, e5⟩ | ⟨s, r, e1, e2, e3, e4, e5⟩ | ⟨w, e1, e5⟩ | ⟨e, e1, e2⟩ |
      ⟨e1, e2⟩ | ⟨e1, e2⟩
    · rw [e4, setPk_self]; intro _ f; nofun
    · rw [e5, setPk_self]; intro _ f; nofun
    · rw [e5, setPk_self]
      unfold filterEvent
      dsimp only
      repeat' split
      all_goals (intro _ f; nofun)
    · rw [e5, setPk_self]; trivial
    · rw [e2]; exact h
    · rw [e2]; exact h
    · rw [e2]; exact h
  · rw [(feed_frame c p).2.2.2.2.2 q e]; exact h

theorem stopped_drop {c : Core} {batch q} (h : Stopped (c.pk q)) : Stopped ((dropEntries c batch).pk q) := by
  unfold dropEntries
  induction batch generalizing c with
  | nil => exact h
  | cons p l ih =>
    rw [List.foldl_cons]
    apply ih
    by_cases e : q = p
    · subst e; rw [dropEntry_pkt]; split
      · rename_i hk; rw [hk] at h; exact h
      · exact h
    · rw [(dropEntry_frame c p).2.2.2.2.2 q e]; exact h

/-- A step keeps it so, unless it is the end of a `delete` that fails. -/
theorem stopped_eff {c o c'} (he : Eff c o c') (q : PId) (hok : ∀ t k fd r, o = .deleted t k fd q r → r = .ok) (h : Stopped (c.pk q)) :
    Stopped (c'.pk q) := by
  cases he with
  | quiet h1 _ _ _ => rw [h1]; exact h
  | insert _ h1 _ _ _ =>
    rw [h1]; dsimp only
    split
    · unfold newPkt; split
      · intro hw; cases hw
      · trivial
    · exact h
  | remove _ h1 _ _ => rw [h1]; exact h
  | @set t k fd p ev mode _ =>
    by_cases e : q = p
    · subst e
      unfold setEvents
      split
      · rename_i k hk; dsimp only; rw [setPk_self]; rw [hk] at h; exact h
      · rename_i k hk; dsimp only; rw [setPk_self]; trivial
      · exact h
    · rw [(setEvents_frame _ _ _ _).2.2.2.2.2 q e]; exact h
  | @del t k fd p fault =>
    by_cases e : q = p
    · subst e
      have hr := hok _ _ _ _ rfl
      revert hr
      unfold beginDelete
      split
      · rename_i k hk
        rw [hk] at h
        split
        · intro _; dsimp only; rw [hk]; exact h
        · dsimp only
          split
          · rename_i f hst
            dsimp only
            rw [setPk_self]
            unfold cancel
            repeat' split
            all_goals first | (intro hr; cases hr; done) | (intro _ _ f hf; cases hf)
          · rename_i hst
            intro _
            dsimp only
            rw [setPk_self]
            intro _ f hf
            exact hst f hf
      · intro _; dsimp only; rw [setPk_self]; trivial
      · intro _; exact h
    · rw [(beginDelete_frame fault c p).2.2.2.2.2 q e]; exact h
  | update _ => exact stopped_update h
  | feed _ _ => exact stopped_feed h
  | feedQuiet _ _ => exact stopped_feed h
  | drop _ => exact stopped_drop h
  | packet h1 _ _ _ =>
    rw [h1]; dsimp only
    split
    · trivial
    · exact h
  | @complete _ p k mask cancelling r hp hop hr hpk _ _ =>
    rw [hpk]
    by_cases e : q = p
    · subst e; rw [setPk_self]; rw [hp] at h; exact h
    · rw [setPk_other _ _ e]; exact h
  | @wtb _ p w status hp hpk _ _ =>
    rw [hpk]
    by_cases e : q = p
    · subst e; rw [setPk_self]; trivial
    · rw [setPk_other _ _ e]; exact h

theorem reach_stopped {n P s tr} (h : Reach n P s tr) (q : PId) (hok : ∀ t k fd r, .deleted t k fd q r ∈ tr → r = .ok) :
    Stopped (s.c.pk q) := by
  induction h with
  | init =>
    show Stopped (if q = NOTIFIER then Pkt.wakeup else Pkt.free)
    split <;> trivial
  | @step s tr a s' o hr hp hs ih =>
    refine stopped_eff (reach_eff hr hs) q ?_ (ih fun t k fd r hm => hok t k fd r (List.mem_cons_of_mem _ hm))
    rintro t k fd r rfl
    exact hok t k fd r (List.mem_cons_self ..)

theorem uobs_deleted {o t k fd p r} (h : UObs o) : o ≠ .deleted t k fd p r := by rintro rfl; exact h

/-- Where the end of a `delete` comes from. -/
theorem deleted_step {n s a s' t k fd p r} (hs : step n s a = some (s', .deleted t k fd p r)) :
    ∃ u fault call, a = .go u fault ∧ s.pc u = .del call p ∧ r = (beginDelete fault s.c p).1 := by
  cases a with
  | go u fault =>
    simp only [step, goCall] at hs
    split at hs
    · cases hs
    split at hs
    · split at hs <;> cases hs
    · repeat' split at hs
      all_goals cases hs
    · split at hs <;> cases hs
    · rename_i call q hpc
      cases hs
      exact ⟨_, _, _, rfl, hpc, rfl⟩
    · split at hs
      · rename_i hu; cases hs; exact absurd rfl (uobs_deleted (uobs_ustep hu))
      · rename_i hu; cases hs; exact absurd rfl (uobs_deleted (uobs_ustep hu))
    · cases hs
    · cases hs
  | wait fault =>
    exfalso
    simp only [step, goWait] at hs
    split at hs
    · cases hs
    · cases hs
    · split at hs <;> cases hs
    · rename_i q' _
      split at hs
      · rename_i m _
        injection hs with hs; injection hs with h1 h2; exact uobs_deleted (uobs_updateObs q' m) h2
      · rename_i m _
        injection hs with hs; injection hs with h1 h2; exact uobs_deleted (uobs_updateObs q' m) h2
    · cases hs
    · unfold waitFail at hs; split at hs <;> cases hs
    · unfold waitFail at hs; split at hs <;> cases hs
    · cases hs
    · split at hs
      · cases hs
      · cases hs
      · cases hs
      · cases hs
      · rename_i ev _ _; cases ev <;> cases hs
    · split at hs
      · rename_i hu; cases hs; exact absurd rfl (uobs_deleted (uobs_ustep hu))
      · rename_i hu; cases hs; exact absurd rfl (uobs_deleted (uobs_ustep hu))
      · rename_i hu; cases hs; exact absurd rfl (uobs_deleted (uobs_ustep hu))
    · cases hs
    · cases hs
  | _ =>
    exfalso
    simp only [step] at hs
    repeat' split at hs
    all_goals cases hs

/-- If the OS refuses nothing, every `delete` succeeds. -/
theorem deleted_ok {n P s tr} (hP : ∀ s a, P s a → Accepts s a) (h : Reach n P s tr) (t k fd p r) (hm : .deleted t k fd p r ∈ tr) :
    r = .ok := by
  induction h with
  | init => cases hm
  | @step s tr a s' o hr hp hs ih =>
    rcases List.mem_cons.1 hm with rfl | hm
    · obtain ⟨u, fault, call, rfl, hpc, rfl⟩ := deleted_step hs
      have hA := hP _ _ hp
      cases fault with
      | some e => rcases hA with ⟨call', h'⟩ | ⟨call', q, h'⟩ <;> (rw [hpc] at h'; cases h')
      | none =>
        unfold beginDelete
        dsimp only
        split
        · split
          · rfl
          · split
            · unfold cancel; repeat' split
              all_goals first | rfl | (rename_i hh; cases hh)
            · rfl
        · rfl
        · rfl
    · exact ih hm

/-- What may happen to the wait of a waitable handle, apart from its removal and callbacks. -/
def WNext (x x' : Pkt) : Prop :=
  ∀ w', x' = .waitable w' → (∃ w, x = .waitable w ∧ w'.status = w.status ∧ w'.registered = w.registered) ∨ w'.status = .idle ∨
    (w'.status = .waiting ∧ w'.registered = true)

theorem WNext.refl (x) : WNext x x := fun _ h => .inl ⟨_, h, rfl, rfl⟩

theorem WNext.trans {x y z} (h1 : WNext x y) (h2 : WNext y z) : WNext x z := by
  intro w h
  rcases h2 w h with ⟨w1, e, e1, e2⟩ | h | h
  · rcases h1 w1 e with ⟨w2, f, f1, f2⟩ | h | h
    · exact .inl ⟨w2, f, e1.trans f1, e2.trans f2⟩
    · exact .inr (.inl (e1.trans h))
    · exact .inr (.inr ⟨e1.trans h.1, e2.trans h.2⟩)
  · exact .inr (.inl h)
  · exact .inr (.inr h)

theorem wnext_setPk {c : Core} {p q x} (h : q = p → WNext (c.pk p) x) : WNext (c.pk p) ((setPk c q x).pk p) := by
  by_cases e : p = q
  · subst e; rw [setPk_self]; exact h rfl
  · rw [setPk_other _ _ e]; exact .refl _

theorem wnext_update (fault c q p) : WNext (c.pk p) ((update fault c q).2.1.pk p) := by
  unfold update
  split
  · exact wnext_setPk fun _ => nofun
  · rename_i w hq
    refine wnext_setPk ?_
    rintro rfl
    rw [hq]
    unfold updateWtb
    repeat' split
    · exact .refl _
    · exact .refl _
    · exact .refl _
    · intro w' h; cases h; exact .inr (.inr ⟨rfl, rfl⟩)
  · exact .refl _

theorem wnext_ustep {fault c u c' out o p} (hu : ustep fault c u = (c', out, o)) : WNext (c.pk p) (c'.pk p) := by
  cases u with
  | load q => simp only [ustep] at hu; cases hu; exact .refl _
  | run q => simp only [ustep] at hu; cases hu; exact wnext_update _ _ _ _
  | push q => simp only [ustep] at hu; split at hu <;> (cases hu; exact .refl _)
  | pop q m => simp only [ustep] at hu; split at hu <;> (cases hu; exact .refl _)
  | drain q m r => simp only [ustep] at hu; cases hu; exact wnext_update _ _ _ _

theorem wnext_setEvents (c q ev mode p) : WNext (c.pk p) ((setEvents c q ev mode).2.pk p) := by
  unfold setEvents
  split
  · exact wnext_setPk fun _ => nofun
  · rename_i w hq
    refine wnext_setPk ?_
    rintro rfl
    intro w' h; cases h; exact .inl ⟨w, hq, rfl, rfl⟩
  · exact .refl _

theorem wnext_feed (c q p) : WNext (c.pk p) ((feed c q).2.pk p) := by
  rcases feed_cases c q with ⟨s, r, e1, e2, e3, e4⟩ | ⟨s, r, e1, e2, e3, e4, e5⟩ | ⟨s, r, e1, e2, e3, e4, e5⟩ | ⟨w, e1, e5⟩ | ⟨e, e1, e2⟩ |
      ⟨e1, e2⟩ | ⟨e1, e2⟩
  · rw [e4]; exact wnext_setPk fun _ => nofun
  · rw [e5]; exact wnext_setPk fun _ => nofun
  · rw [e5]; exact wnext_setPk fun _ => nofun
  · rw [e5]
    refine wnext_setPk ?_
    rintro rfl
    intro w' h; cases h
    left
    refine ⟨w, e1, ?_⟩
    split <;> exact ⟨rfl, rfl⟩
  · rw [e2]; exact .refl _
  · rw [e2]; exact .refl _
  · rw [e2]; exact .refl _

theorem wnext_drop (batch : List PId) (p) : ∀ (c : Core), WNext (c.pk p) ((dropEntries c batch).pk p) := by
  induction batch with
  | nil => intro c; exact .refl _
  | cons q batch ih =>
    intro c
    refine .trans ?_ (ih (dropEntry c q))
    unfold dropEntry
    split
    · exact wnext_setPk fun _ => nofun
    · exact .refl _

/-- One step: the wait of a waitable handle. -/
theorem wtb_next {n s a s' o} (hs : step n s a = some (s', o)) (p : PId) :
    (WNext (s.c.pk p) (s'.c.pk p) ∧ (p ∈ s.cb → p ∈ s'.cb ∨ ∀ w', s'.c.pk p = .waitable w' → w'.status = .idle)) ∨
    (a = .fire p ∧ p ∈ s'.cb ∧ ∃ w, s.c.pk p = .waitable w ∧ s'.c.pk p = .waitable { w with registered := false }) ∨
    ∃ t k fd r, o = .deleted t k fd p r ∧ ∀ w', s'.c.pk p = .waitable w' → w'.status = .cancelled := by
  have keep : s'.c.pk p = s.c.pk p → s'.cb = s.cb →
      (WNext (s.c.pk p) (s'.c.pk p) ∧ (p ∈ s.cb → p ∈ s'.cb ∨ ∀ w', s'.c.pk p = .waitable w' → w'.status = .idle)) := by
    intro h1 h2
    rw [h1, h2]
    exact ⟨.refl _, .inl⟩
  have next : WNext (s.c.pk p) (s'.c.pk p) → s'.cb = s.cb →
      (WNext (s.c.pk p) (s'.c.pk p) ∧ (p ∈ s.cb → p ∈ s'.cb ∨ ∀ w', s'.c.pk p = .waitable w' → w'.status = .idle)) := by
    intro h1 h2
    rw [h2]
    exact ⟨h1, .inl⟩
  cases a with
  | go t fault =>
    simp only [step, goCall] at hs
    split at hs
    · cases hs
    split at hs
    · split at hs <;> (cases hs; exact .inl (keep rfl rfl))
    · split at hs
      · split at hs
        · cases hs; exact .inl (keep rfl rfl)
        · cases hs
          refine .inl (next ?_ rfl)
          refine wnext_setPk fun _ => ?_
          intro w' h
          right; left
          unfold newPkt at h
          split at h <;> cases h
          rfl
      · split at hs <;> (cases hs; exact .inl (keep rfl rfl))
      · split at hs <;> (cases hs; exact .inl (keep rfl rfl))
    · split at hs
      · cases hs; exact .inl (next (wnext_setEvents _ _ _ _ _) rfl)
      · cases hs
    · rename_i call q hpc
      cases hs
      by_cases e : p = q
      · subst e
        refine .inr (.inr ⟨_, _, _, _, rfl, ?_⟩)
        intro w'
        dsimp only
        unfold beginDelete
        split
        · rename_i k hk
          dsimp only
          split
          · dsimp only; rw [hk]; nofun
          · split <;> (dsimp only; rw [setPk_self]; nofun)
        · dsimp only; rw [setPk_self]; intro h; cases h; rfl
        · rename_i h1 h2; intro h; exact absurd h (h2 _)
      · exact .inl (keep ((beginDelete_frame fault s.c q).2.2.2.2.2 p e) rfl)
    · split at hs
      · rename_i hu; cases hs; exact .inl (next (wnext_ustep hu) rfl)
      · rename_i hu; cases hs; exact .inl (next (wnext_ustep hu) rfl)
    · cases hs; exact .inl (keep rfl rfl)
    · cases hs
  | newPacket ev =>
    simp only [step] at hs
    split at hs
    · cases hs
    · cases hs; exact .inl (next (wnext_setPk fun _ => nofun) rfl)
  | wait fault =>
    simp only [step, goWait] at hs
    split at hs
    · cases hs; exact .inl (keep rfl rfl)
    · cases hs; exact .inl (keep rfl rfl)
    · split at hs <;> (cases hs; exact .inl (keep rfl rfl))
    · rename_i w q hp
      have := wnext_update fault s.c q p
      split at hs
      · rename_i he; rw [he] at this; cases hs; exact .inl (next this rfl)
      · rename_i he; rw [he] at this; cases hs; exact .inl (next this rfl)
    · cases hs; exact .inl (keep rfl rfl)
    · unfold waitFail at hs; split at hs <;> (cases hs; exact .inl (keep rfl rfl))
    · unfold waitFail at hs; split at hs <;> (cases hs; exact .inl (keep rfl rfl))
    · rename_i q _ _; cases hs; exact .inl (next (wnext_drop [q] p s.c) rfl)
    · rename_i w q batch hp
      have := wnext_feed s.c q p
      split at hs
      all_goals rename_i he; rw [he] at this; cases hs; exact .inl (next this rfl)
    · split at hs
      · rename_i hu; cases hs; exact .inl (next (wnext_ustep hu) rfl)
      · rename_i hu; cases hs; exact .inl (next (wnext_ustep hu) rfl)
      · rename_i hu; cases hs; exact .inl (next (wnext_ustep hu) rfl)
    · cases hs; exact .inl (keep rfl rfl)
    · cases hs
  | complete q r =>
    simp only [step] at hs
    split at hs
    · rename_i k hk
      split at hs
      · split at hs
        · cases hs
          exact .inl (next (wnext_setPk fun _ => nofun) rfl)
        · cases hs
      · cases hs
    · cases hs
  | fire q =>
    simp only [step] at hs
    split at hs
    · rename_i w hw
      split at hs
      · rename_i hreg
        cases hs
        by_cases e : p = q
        · subst e
          refine .inr (.inl ⟨rfl, List.mem_cons_self .., w, hw, ?_⟩)
          dsimp only; rw [setPk_self]
        · left
          refine ⟨?_, fun h => .inl (List.mem_cons_of_mem _ h)⟩
          dsimp only; rw [setPk_other _ _ e]; exact .refl _
      · cases hs
    · cases hs
  | callback q =>
    simp only [step] at hs
    split at hs
    · rename_i w hw
      split at hs
      · cases hs
        left
        by_cases e : p = q
        · subst e
          dsimp only
          rw [setPk_self]
          refine ⟨?_, fun _ => .inr ?_⟩
          · intro w' h; cases h; exact .inr (.inl rfl)
          · intro w' h; cases h; rfl
        · dsimp only
          rw [setPk_other _ _ e]
          exact ⟨.refl _, fun h => .inl ((List.mem_erase_of_ne e).2 h)⟩
      · cases hs
    · cases hs
  | _ =>
    simp only [step] at hs
    repeat' split at hs
    all_goals cases hs
    all_goals exact .inl (keep rfl rfl)

/-- If a waitable handle is said to be waited for, the OS waits for it or has dispatched the callback; if it is said to be
removed, it is. -/
theorem reach_wtb {n P s tr} (h : Reach n P s tr) (p : PId) (w : Wtb) (hw : s.c.pk p = .waitable w) :
    (w.status = .waiting → w.registered = true ∨ p ∈ s.cb) ∧ (w.status = .cancelled → ∀ k fd, s.c.table k fd ≠ some p) := by
  induction h generalizing w with
  | init =>
    revert hw
    show (if p = NOTIFIER then Pkt.wakeup else Pkt.free) = _ → _
    split <;> nofun
  | @step s tr a s' o hr hp hs ih =>
    have hti := reach_ti hr
    have hown := reach_own hr
    have stay : ident (s.c.pk p) ≠ none → (∀ k fd, s.c.table k fd ≠ some p) → ∀ k fd, s'.c.table k fd ≠ some p := by
      intro hi hn k fd h
      rcases table_eff (reach_eff hr hs) k fd p h with h | h
      · exact hn k fd h
      · subst h; rw [hti.low _ (Nat.le_refl _)] at hi; exact hi rfl
    rcases wtb_next hs p with ⟨h1, h2⟩ | ⟨_, h1, w0, h2, h3⟩ | ⟨t, k, fd, r, ho, h1⟩
    · rcases h1 w hw with ⟨w0, e, e1, e2⟩ | h | ⟨h, h'⟩
      · obtain ⟨i1, i2⟩ := ih w0 e
        refine ⟨fun hst => ?_, fun hst => ?_⟩
        · rcases i1 (e1 ▸ hst) with i | i
          · exact .inl (e2.trans i)
          · rcases h2 i with h | h
            · exact .inr h
            · rw [h w hw] at hst; cases hst
        · exact stay (by rw [e]; nofun) (i2 (e1 ▸ hst))
      · rw [h]; exact ⟨nofun, nofun⟩
      · exact ⟨fun _ => .inl h', by rw [h]; nofun⟩
    · rw [h3] at hw; cases hw
      exact ⟨fun _ => .inr h1, fun hst => stay (by rw [h2]; nofun) ((ih w0 h2).2 hst)⟩
    · refine ⟨by rw [h1 w hw]; nofun, fun _ => ?_⟩
      have hd := (step_del hr hs).2 t k fd p r ho
      have : ∃ call, (s.pc t).looked = some (call, p) := by
        cases hpc : s.pc t <;> rw [hpc] at hd <;> cases hd
        exact ⟨_, rfl⟩
      obtain ⟨call, hc⟩ := this
      exact stay (by rw [hown t call p hc]; nofun) ((reach_gone hr).1 t p hd)

end Polling.IocpM
