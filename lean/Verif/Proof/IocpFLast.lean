import Verif.Proof.IocpFBuf

/- The result that is read is the one the kernel wrote last. -/

namespace Polling.IocpF
open Iocp IocpSpec IocpM

/-- The operation of the packet completed with the result. -/
def DoneIn (r : PollRes) : Pkt → Prop
  | .socket s => s.op = .done r
  | _ => False

/-- The operation of the packet is in flight. -/
def Flying : Pkt → Prop
  | .socket s => ∃ m c, s.op = .inFlight m c
  | _ => False

theorem cancel_done {fault s r} (h : (cancel fault s).2.op = .done r) : s.op = .done r := by
  unfold cancel at h
  split at h
  · exact h
  · dsimp only at h
    cases ho : s.op with
    | inFlight m b => rw [ho] at h; cases h
    | done r' => rw [ho] at h; exact h
    | none => rw [ho] at h; cases h

theorem eff_done {c o c' r} (he : Eff c o c') : ∀ p, DoneIn r (c'.pk p) → DoneIn r (c.pk p) ∨ Flying (c.pk p) := by
  have one : ∀ {p : PId} {c' : Core}, (∀ q, q ≠ p → c'.pk q = c.pk q) → (DoneIn r (c'.pk p) → DoneIn r (c.pk p) ∨ Flying (c.pk p)) →
      ∀ q, DoneIn r (c'.pk q) → DoneIn r (c.pk q) ∨ Flying (c.pk q) := by
    intro p c' h1 h2 q
    by_cases e : q = p
    · subst e; exact h2
    · rw [h1 q e]; exact .inl
  have hup : ∀ fault p, DoneIn r ((update fault c p).2.1.pk p) → DoneIn r (c.pk p) ∨ Flying (c.pk p) := by
    intro fault p
    rw [update_pkt]
    split
    · rename_i s hs
      rw [hs]
      intro h
      refine .inl ?_
      have h : (updateSock fault s).2.1.op = .done r := h
      show s.op = .done r
      unfold updateSock startPoll at h
      dsimp only at h
      split at h
      · exact h
      split at h
      · split at h
        · rcases hc : cancel fault s with ⟨r', s'⟩
          rw [hc] at h
          exact cancel_done (fault := fault) (by rw [hc]; exact h)
        · exact h
      · exact h
      · split at h
        · exact h
        · split at h
          · cases h
          · split at h <;> exact h
    · nofun
    · exact .inl
  cases he with
  | quiet h1 _ _ _ => intro p; rw [h1]; exact .inl
  | @insert _ t k fd ev mode ht hpk hn htab hok =>
    intro p
    rw [hpk]; dsimp only
    split
    · unfold newPkt
      split <;> nofun
    · exact .inl
  | remove _ h1 _ _ => intro p; rw [h1]; exact .inl
  | @set t k fd p ev mode hok =>
    unfold setEvents
    split
    · rename_i s hs
      exact one (p := p) (fun q hq => setPk_other _ _ hq) (by rw [setPk_self, hs]; exact .inl)
    · exact one (p := p) (fun q hq => setPk_other _ _ hq) (by rw [setPk_self]; nofun)
    · intro q; exact .inl
  | @del t k fd p fault =>
    refine one (p := p) (beginDelete_frame fault c p).2.2.2.2.2 ?_
    unfold beginDelete
    dsimp only
    split
    · rename_i s hs; rw [hs]
      split
      · dsimp only; rw [hs]; exact .inl
      · split
        · rw [setPk_self]; intro h; exact .inl (cancel_done (s := { s with waitingOnDelete := true }) h)
        · rw [setPk_self]; exact .inl
    · rw [setPk_self]; nofun
    · exact .inl
  | @update p fault _ _ => exact one (p := p) (update_frame fault c p).2.2.2.2.2 (hup fault p)
  | @feed p k fd ev o hf ho =>
    refine one (p := p) (feed_frame c p).2.2.2.2.2 ?_
    rcases feed_cases c p with ⟨s, r, e1, e2, e3, e4⟩ | ⟨s, r, e1, e2, e3, e4, e5⟩ | ⟨s, r, e1, e2, e3, e4, e5⟩ | ⟨w, e1, e5⟩ | ⟨e, e1, e2⟩ |
      ⟨e1, e2⟩ | ⟨e1, e2⟩
    · rw [e4] at hf; cases hf
    · rw [e5] at hf; cases hf
    · rw [e5, setPk_self]
      obtain ⟨_, _, _, _, _, f6⟩ := filterEvent_frame s.taken (rawEvent s.interest.key r)
      intro h
      have h : (filterEvent s.taken (rawEvent s.interest.key r)).1.op = _ := h
      rw [f6] at h; cases h
    · rw [e5, setPk_self]; nofun
    · rw [e2] at hf; cases hf
    · rw [e2] at hf; cases hf
    · rw [e2] at hf; cases hf
  | @feedQuiet p o hf ho =>
    rcases feed_cases c p with ⟨s, r, e1, e2, e3, e4⟩ | ⟨s, r, e1, e2, e3, e4, e5⟩ | ⟨s, r, e1, e2, e3, e4, e5⟩ | ⟨w, e1, e5⟩ | ⟨e, e1, e2⟩ |
      ⟨e1, e2⟩ | ⟨e1, e2⟩
    · rw [e4]
      exact one (p := p) (fun q hq => setPk_other _ _ hq) (by rw [setPk_self]; nofun)
    · rw [e5]
      exact one (p := p) (fun q hq => setPk_other _ _ hq) (by rw [setPk_self]; nofun)
    · rw [e5] at hf; exact absurd rfl (hf _ _ _)
    · rw [e5] at hf; exact absurd rfl (hf _ _ _)
    · rw [e2]; exact fun _ => .inl
    · rw [e2]; exact fun _ => .inl
    · rw [e2]; exact fun _ => .inl
  | @drop p o ho =>
    refine one (p := p) (dropEntry_frame c p).2.2.2.2.2 ?_
    show DoneIn r ((dropEntry c p).pk p) → _
    rw [dropEntry_pkt]
    split
    · nofun
    · exact .inl
  | packet hpk hn htab hb =>
    intro p
    rw [hpk]; dsimp only
    split
    · nofun
    · exact .inl
  | @complete _ p k mask cancelling r hp hop hr hpk hn htab =>
    rw [hpk]
    refine one (p := p) (fun q hq => setPk_other _ _ hq) fun _ => .inr ?_
    rw [hp]; exact ⟨_, _, hop⟩
  | @wtb _ p w status hp hpk hn htab =>
    rw [hpk]
    exact one (p := p) (fun q hq => setPk_other _ _ hq) (by rw [setPk_self]; nofun)

theorem abs_pk (f : F) (p) : (∀ r, DoneIn r ((abs f).c.pk p) ↔ DoneIn r (f.m.c.pk p)) ∧ (Flying ((abs f).c.pk p) ↔ Flying (f.m.c.pk p)) := by
  have : (abs f).c.pk p = absPkt (decide (f.taken = some p)) (f.sec p) (f.m.c.pk p) := rfl
  rw [this]
  cases hx : f.m.c.pk p with
  | socket s =>
    have : ∃ y, absPkt (decide (f.taken = some p)) (f.sec p) (.socket s) = .socket y ∧ y.op = s.op := by
      cases hs : f.sec p with
      | none => exact ⟨_, rfl, baseS_op _ _⟩
      | some wp => exact ⟨_, rfl, (absS_keep _ _).trans (baseS_op _ _)⟩
    obtain ⟨y, hy, ho⟩ := this
    rw [hy]
    unfold DoneIn Flying
    dsimp only
    rw [ho]
    exact ⟨fun _ => Iff.rfl, Iff.rfl⟩
  | waitable w => cases hs : f.sec p <;> exact ⟨fun _ => Iff.rfl, Iff.rfl⟩
  | free => cases hs : f.sec p <;> exact ⟨fun _ => Iff.rfl, Iff.rfl⟩
  | custom ev => cases hs : f.sec p <;> exact ⟨fun _ => Iff.rfl, Iff.rfl⟩
  | wakeup => cases hs : f.sec p <;> exact ⟨fun _ => Iff.rfl, Iff.rfl⟩

theorem matches_inj {b r r'} (h : Matches b r) (h' : Matches b r') : r = r' := by
  cases r <;> cases r' <;> simp only [Matches] at h h' <;> first | rfl | (simp_all; done) | skip
  all_goals simp_all

/-- The result the kernel wrote last for the packet. -/
def lastWrite (p : PId) (as : List FAct) : Option PollRes :=
  as.foldl (fun x a => match a with | .write q r => if q = p then some r else x | _ => x) none

theorem lastWrite_snoc (p as a) : lastWrite p (as ++ [a]) =
    match a with | .write q r => if q = p then some r else lastWrite p as | _ => lastWrite p as := by
  unfold lastWrite
  rw [List.foldl_append]; rfl

theorem lastWrite_other {p as a} (h : ∀ r, a ≠ .write p r) : lastWrite p (as ++ [a]) = lastWrite p as := by
  rw [lastWrite_snoc]
  cases a with
  | write q r => exact if_neg fun e => h r (by rw [e])
  | _ => rfl

/-- What is written or completed is what was written last. -/
theorem last_result {n as f} (h : FSteps n init as f) (p : PId) :
    (∀ r, f.written p = some r → lastWrite p as = some r) ∧ ∀ r, DoneIn r (f.m.c.pk p) → lastWrite p as = some r := by
  have key : ∀ as f, (∃ tr, FReach n FAny f tr) → ∀ bs, ((∀ r, f.written p = some r → lastWrite p bs = some r) ∧
      ∀ r, DoneIn r (f.m.c.pk p) → lastWrite p bs = some r) → ∀ f', FSteps n f as f' →
      ((∀ r, f'.written p = some r → lastWrite p (bs ++ as) = some r) ∧ ∀ r, DoneIn r (f'.m.c.pk p) → lastWrite p (bs ++ as) = some r) := by
    intro as
    induction as with
    | nil => intro f _ bs h f' hs; cases hs; rw [List.append_nil]; exact h
    | cons a as ih =>
      intro f hf bs hb f' hs
      cases hs with
      | @cons _ _ f1 o _ _ hst hrest =>
        obtain ⟨tr, hf⟩ := hf
        rw [show bs ++ a :: as = (bs ++ [a]) ++ as by simp]
        refine ih f1 ⟨_, .step hf trivial hst⟩ (bs ++ [a]) ?_ f' hrest
        have hi := refine_any hf
        have hi' := refine_any (FReach.step hf trivial hst)
        by_cases hw : ∃ r, a = .write p r
        · obtain ⟨r, rfl⟩ := hw
          have hl : lastWrite p (bs ++ [.write p r]) = some r := by rw [lastWrite_snoc]; exact if_pos rfl
          rw [hl]
          simp only [fstep] at hst
          split at hst
          · rename_i s hx
            split at hst
            · rename_i m c ho
              split at hst
              · cases hst
                constructor
                · intro r' hr'
                  have : put f.written p (some r) p = some r' := hr'
                  rw [put_self] at this
                  exact this
                · intro r' hr'
                  have : DoneIn r' (f.m.c.pk p) := hr'
                  rw [hx] at this
                  have : s.op = .done r' := this
                  rw [ho] at this; cases this
              · cases hst
            · cases hst
          · cases hst
        · have hw : ∀ r, a ≠ .write p r := fun r e => hw ⟨r, e⟩
          rw [lastWrite_other hw]
          have hwr : ∀ r, f1.written p = some r → f.written p = some r := by
            intro r hr
            cases a with
            | plain a =>
              simp only [fstep] at hst
              split at hst
              · cases hs2 : step n f.m a with
                | none => rw [hs2] at hst; cases hst
                | some q =>
                  rw [hs2] at hst; cases hst
                  have hr : writtenAfter f a p = some r := hr
                  cases a with
                  | complete q' r' =>
                    have hr : put f.written q' none p = some r := hr
                    unfold put at hr
                    split at hr
                    · cases hr
                    · exact hr
                  | _ => exact hr
              · cases hst
            | take =>
              simp only [fstep] at hst
              split at hst
              · split at hst
                · cases hst; exact hr
                · cases hst
              · cases hst
            | lock w q =>
              simp only [fstep] at hst
              split at hst
              · rename_i k q' _
                split at hst
                · cases he : entry k (f.m.c.pk q) with
                  | none => rw [he] at hst; cases hst
                  | some pos => rw [he] at hst; cases hst; exact hr
                · cases hst
              · cases hst
            | access q fault =>
              simp only [fstep] at hst
              split at hst
              · rename_i w pos _
                cases he : stepPkt fault (f.m.c.pk q) (f.buf q) pos with
                | none => rw [he] at hst; cases hst
                | some r2 => rw [he] at hst; cases hst; exact hr
              · cases hst
            | unlock q =>
              simp only [fstep] at hst
              split at hst
              · cases hst; exact hr
              · cases hst
            | write q r' =>
              simp only [fstep] at hst
              split at hst
              · split at hst
                · split at hst
                  · cases hst
                    have hr : put f.written q (some r') p = some r := hr
                    unfold put at hr
                    split at hr
                    · rename_i e; exact absurd (by rw [e]) (hw r')
                    · exact hr
                  · cases hst
                · cases hst
              · cases hst
          refine ⟨fun r hr => hb.1 r (hwr r hr), ?_⟩
          intro r hr
          have hcases : DoneIn r (f.m.c.pk p) ∨ Flying (f.m.c.pk p) := by
            have ha := (abs_pk f1 p).1 r |>.mpr hr
            have : DoneIn r ((abs f).c.pk p) ∨ Flying ((abs f).c.pk p) := by
              rcases (sim hi.2 hi.1 hst).1 with ⟨_, _, e⟩ | ⟨a', o', _, _, e⟩
              · rw [e] at ha; exact .inl ha
              · exact eff_done (reach_eff hi.1 e) p ha
            rcases this with h | h
            · exact .inl ((abs_pk f p).1 r |>.mp h)
            · exact .inr ((abs_pk f p).2.mp h)
          rcases hcases with h | h
          · exact hb.2 r h
          · -- completed now: the result was written
            have hx : ∃ s, f.m.c.pk p = .socket s ∧ ∃ m c, s.op = .inFlight m c := by
              cases hx : f.m.c.pk p with
              | socket s => rw [hx] at h; exact ⟨s, rfl, h⟩
              | _ => rw [hx] at h; exact h.elim
            obtain ⟨s, hx, m, c, ho⟩ := hx
            have hx1 : ∃ s, f1.m.c.pk p = .socket s ∧ s.op = .done r := by
              cases hx : f1.m.c.pk p with
              | socket s => rw [hx] at hr; exact ⟨s, rfl, hr⟩
              | _ => rw [hx] at hr; exact hr.elim
            obtain ⟨s1, hx1, ho1⟩ := hx1
            have hbuf : f1.buf p = f.buf p := by
              apply Classical.byContradiction
              intro hne
              rcases buf_writes hf hst hne with ⟨r', _, _, _, e, _⟩ | ⟨_, s', _, e, e', _⟩
              · exact hw r' e
              · rw [hx] at e; cases e; rw [ho] at e'; cases e'
            have b0 := hi.2.buf p s hx
            have b1 := hi'.2.buf p s1 hx1
            rw [ho] at b0
            rw [ho1, hbuf] at b1
            cases hwn : f.written p with
            | none =>
              rw [hwn] at b0
              have b0 : (f.buf p).status = .pending := b0
              have := b1.2
              cases r <;> simp [Matches, b0] at this
            | some r0 =>
              rw [hwn] at b0
              have := matches_inj b0.2 b1.2
              subst this
              exact hb.1 r0 hwn
  have := key as init ⟨[], .init⟩ [] ⟨nofun, fun r hr => by
    have : DoneIn r (if p = NOTIFIER then Pkt.wakeup else Pkt.free) := hr
    split at this <;> exact this.elim⟩ f h
  exact this

/-- Polls and deliveries are observed in critical sections only. -/
theorem plain_obs {n f a s' o} (hp : plain f a = true) (hs : step n f.m a = some (s', o)) :
    (∀ p mask, o ≠ .polled p mask) ∧ ∀ k fd p ev, o ≠ .deliver k fd p ev := by
  have hu : ∀ fault u, (∀ p, uSite u = some p → entry .upd (f.m.c.pk p) = none) →
      (∀ p mask, (ustep fault f.m.c u).2.2 ≠ .polled p mask) ∧ ∀ k fd p ev, (ustep fault f.m.c u).2.2 ≠ .deliver k fd p ev := by
    intro fault u h
    cases u with
    | load p => exact ⟨nofun, nofun⟩
    | run p => simp only [ustep, update_non (h p rfl)]; exact ⟨nofun, nofun⟩
    | push p => simp only [ustep]; split <;> exact ⟨nofun, nofun⟩
    | pop p k => simp only [ustep]; split <;> exact ⟨nofun, nofun⟩
    | drain q i p => simp only [ustep, update_non (h p rfl)]; exact ⟨nofun, nofun⟩
  have hlock : ∀ {who k p}, locks f.m who = false → site f.m who = some (k, p) → entry k (f.m.c.pk p) = none := by
    intro who k p hl hsite
    unfold locks at hl
    rw [hsite] at hl
    exact Option.isNone_iff_eq_none.mp (by simpa using hl)
  cases a with
  | go t fault =>
    have hl : locks f.m (.thread t) = false := by simpa [plain] using hp
    simp only [step, goCall] at hs
    split at hs
    · cases hs
    split at hs
    case h_5 call u hpc =>
      have := hu fault u fun p hp => hlock hl (show pcSite (f.m.pc t) = some (.upd, p) by rw [hpc]; simp only [pcSite, hp]; rfl)
      split at hs
      · rename_i he; rw [he] at this; cases hs; exact this
      · rename_i he; rw [he] at this; cases hs; exact this
    all_goals repeat' split at hs
    all_goals first | (cases hs; done) | (cases hs; exact ⟨nofun, nofun⟩)
  | wait fault =>
    have hl : locks f.m .waiter = false := by
      have : (!locks f.m .waiter && !untaken f) = true := hp
      cases h : locks f.m .waiter <;> rw [h] at this <;> first | rfl | cases this
    simp only [step, goWait] at hs
    split at hs
    case h_4 w q hph =>
      have := hlock hl (show phaseSite f.m.phase = some (.upd, q) by rw [hph]; rfl)
      rw [update_non this] at hs
      cases hs
      exact ⟨nofun, nofun⟩
    case h_9 w p b hph =>
      have := hlock hl (show phaseSite f.m.phase = some (.feed, p) by rw [hph]; rfl)
      simp only [feed] at hs
      cases hx : f.m.c.pk p with
      | socket s => rw [hx] at this; cases this
      | waitable w => rw [hx] at this; cases this
      | _ => rw [hx] at hs; cases hs; exact ⟨nofun, nofun⟩
    case h_10 w b u ev hph =>
      have := hu (coherent fault u) u fun p hp => hlock hl (show phaseSite f.m.phase = some (.upd, p) by rw [hph]; simp only [phaseSite, hp]; rfl)
      split at hs
      · rename_i he; rw [he] at this; cases hs; exact this
      · rename_i he; rw [he] at this; cases hs; exact this
      · rename_i he; rw [he] at this; cases hs; exact this
    all_goals try unfold waitFail at hs
    all_goals repeat' split at hs
    all_goals first | (cases hs; done) | (cases hs; exact ⟨nofun, nofun⟩)
  | _ =>
    simp only [step] at hs
    repeat' split at hs
    all_goals first | (cases hs; done) | (cases hs; exact ⟨nofun, nofun⟩)


theorem stepSock_mark {fault s b pos pos' s' b' mk} (h : stepSock fault s b pos = some (pos', s', b', some mk)) :
    (∀ mask, mk = .polled mask → pos = .ioctl mask ∧ fault = none) ∧
    ∀ k fd ev, mk = .deliver k fd ev → ∃ ev0 old, pos = .feedInterest ev0 old ∧ k = true ∧ fd = s.socket ∧ ev = narrowed s ev0 ∧ wanted s ev = true := by
  cases pos with
  | setStatus => unfold stepSock at h; dsimp only at h; cases h
  | wod => unfold stepSock at h; dsimp only at h; split at h <;> cases h; exact ⟨nofun, nofun⟩
  | status => unfold stepSock at h; dsimp only at h; split at h <;> cases h; exact ⟨nofun, nofun⟩
  | flags f => unfold stepSock at h; dsimp only at h; split at h <;> cases h; exact ⟨nofun, nofun⟩
  | tryLock f => unfold stepSock at h; dsimp only at h; split at h <;> cases h; exact ⟨nofun, nofun⟩
  | ioctl f =>
    cases fault with
    | none => cases h; exact ⟨fun mask e => by cases e; exact ⟨rfl, rfl⟩, nofun⟩
    | some e => cases h; exact ⟨nofun, nofun⟩
  | pending d =>
    unfold stepSock at h; dsimp only at h
    split at h
    · cases h
    · cases d <;> cases h <;> exact ⟨nofun, nofun⟩
  | cancelIo d => cases fault <;> cases d <;> cases h <;> exact ⟨nofun, nofun⟩
  | delRead => unfold stepSock at h; dsimp only at h; split at h <;> cases h; exact ⟨nofun, nofun⟩
  | delStatus => unfold stepSock at h; dsimp only at h; split at h <;> cases h; exact ⟨nofun, nofun⟩
  | feedWod k o => unfold stepSock at h; dsimp only at h; split at h <;> cases h; exact ⟨nofun, nofun⟩
  | feedInfo k o =>
    unfold stepSock at h; dsimp only at h
    split at h
    · split at h <;> cases h; exact ⟨nofun, nofun⟩
    · cases h
  | feedInterest ev0 o =>
    unfold stepSock at h; dsimp only at h
    split at h
    · rename_i hw; cases h; exact ⟨nofun, fun k fd ev e => by cases e; exact ⟨_, _, rfl, rfl, rfl, rfl, hw⟩⟩
    · cases h; exact ⟨nofun, nofun⟩
  | _ => cases h

theorem stepWtb_mark {fault w pos pos' w' mk} (h : stepWtb fault w pos = some (pos', w', some mk)) :
    (∀ mask, mk ≠ .polled mask) ∧ ∀ fd ev, mk ≠ .deliver true fd ev := by
  cases pos with
  | winterest => unfold stepWtb at h; dsimp only at h; split at h <;> cases h; exact ⟨nofun, nofun⟩
  | wstatus => unfold stepWtb at h; dsimp only at h; split at h <;> cases h; exact ⟨nofun, nofun⟩
  | register => cases fault <;> cases h <;> exact ⟨nofun, nofun⟩
  | _ => cases h <;> exact ⟨nofun, nofun⟩

theorem obs_mark (m who p) (mk : Mark) : (∀ q mask, mk.obs m who p = .polled q mask → q = p ∧ mk = .polled mask) ∧
    ∀ k fd q ev, mk.obs m who p = .deliver k fd q ev → q = p ∧ mk = .deliver k fd ev := by
  cases mk with
  | tau => exact ⟨nofun, nofun⟩
  | polled mask => exact ⟨fun q m' e => by cases e; exact ⟨rfl, rfl⟩, nofun⟩
  | deliver k fd ev => exact ⟨nofun, fun k fd q ev e => by cases e; exact ⟨rfl, rfl⟩⟩
  | ended r =>
    cases who with
    | thread t =>
      have : (Mark.ended r).obs m (.thread t) p = match m.pc t with | .del call _ => .deleted t (callSock call) (callFd call) p r | _ => .tau := rfl
      rw [this]
      split <;> exact ⟨nofun, nofun⟩
    | _ => exact ⟨nofun, nofun⟩

/-- Polls and deliveries are observed at these accesses. -/
theorem marked {n f a f' o} (hs : fstep n f a = some (f', some o)) :
    (∀ p mask, o = .polled p mask → ∃ who s, a = .access p none ∧ f.sec p = some (who, .ioctl mask) ∧ f.m.c.pk p = .socket s) ∧
    ∀ fd p ev, o = .deliver true fd p ev → ∃ who s ev0 old, f.sec p = some (who, .feedInterest ev0 old) ∧ f.m.c.pk p = .socket s ∧
      fd = s.socket ∧ ev = narrowed s ev0 := by
  cases a with
  | plain a =>
    simp only [fstep] at hs
    split at hs
    · rename_i hp
      cases hst : step n f.m a with
      | none => rw [hst] at hs; cases hs
      | some r =>
        rw [hst] at hs; cases hs
        have := plain_obs hp (s' := r.1) (o := r.2) hst
        exact ⟨fun p mask e => absurd e (this.1 p mask), fun fd p ev e => absurd e (this.2 true fd p ev)⟩
    · cases hs
  | take =>
    simp only [fstep] at hs
    split at hs
    · split at hs
      · cases hs
      · cases hs
    · cases hs
  | lock w q =>
    simp only [fstep] at hs
    split at hs
    · rename_i k q' hk
      split at hs
      · cases he : entry k (f.m.c.pk q) with
        | none => rw [he] at hs; cases hs
        | some pos =>
          rw [he] at hs
          have hs : some (_, lockObs f.m q w) = some (f', some o) := hs
          injection hs with hs
          injection hs with _ hl
          unfold lockObs at hl
          split at hl
          · split at hl
            · cases hl; exact ⟨nofun, nofun⟩
            · cases hl
          · cases hl
      · cases hs
    · cases hs
  | access q fault =>
    simp only [fstep] at hs
    split at hs
    · rename_i w pos hsec
      cases hst : stepPkt fault (f.m.c.pk q) (f.buf q) pos with
      | none => rw [hst] at hs; cases hs
      | some r =>
        obtain ⟨pos', x', b', mk⟩ := r
        rw [hst] at hs
        injection hs with hs
        injection hs with _ hl
        cases mk with
        | none => cases hl
        | some mk =>
          have hl : mk.obs f.m w q = o := by injection hl
          have hob := obs_mark f.m w q mk
          rw [hl] at hob
          cases hx : f.m.c.pk q with
          | socket s =>
            rw [hx] at hst
            unfold stepPkt at hst
            dsimp only at hst
            cases h2 : stepSock fault s (f.buf q) pos with
            | none => rw [h2] at hst; cases hst
            | some r2 =>
              obtain ⟨pos2, s2, b2, mk2⟩ := r2
              rw [h2] at hst; cases hst
              have hm := stepSock_mark h2
              constructor
              · intro p mask e
                obtain ⟨rfl, e2⟩ := hob.1 p mask e
                obtain ⟨rfl, rfl⟩ := hm.1 mask e2
                exact ⟨w, s, rfl, hsec, hx⟩
              · intro fd p ev e
                obtain ⟨rfl, e2⟩ := hob.2 true fd p ev e
                obtain ⟨ev0, old, rfl, _, h3, h4, _⟩ := hm.2 true fd ev e2
                exact ⟨w, s, ev0, old, hsec, hx, h3, h4⟩
          | waitable y =>
            rw [hx] at hst
            unfold stepPkt at hst
            dsimp only at hst
            cases h2 : stepWtb fault y pos with
            | none => rw [h2] at hst; cases hst
            | some r2 =>
              obtain ⟨pos2, s2, mk2⟩ := r2
              rw [h2] at hst; cases hst
              have hm := stepWtb_mark h2
              exact ⟨fun p mask e => absurd (hob.1 p mask e).2 (hm.1 mask), fun fd p ev e => absurd (hob.2 true fd p ev e).2 (hm.2 fd ev)⟩
          | _ => rw [hx] at hst; cases hst
    · cases hs
  | unlock q =>
    simp only [fstep] at hs
    split at hs
    · cases hs
    · cases hs
  | write q r =>
    simp only [fstep] at hs
    split at hs
    · split at hs
      · split at hs
        · cases hs
        · cases hs
      · cases hs
    · cases hs

end Polling.IocpF
