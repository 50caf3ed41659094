import Verif.Proof.IocpReg

/-! The local-close condition is never asked for, so never reported. -/

namespace Polling.IocpM
open Iocp IocpSpec

/-- The mask does not have the condition. -/
def NoClose (m : Mask) : Prop := m &&& LOCAL_CLOSE = 0#32

theorem noClose_bit {m} : NoClose m ↔ m.getLsbD 5 = false := by
  have hb : ∀ i, i < 32 → LOCAL_CLOSE.getLsbD i = decide (i = 5) := by decide
  constructor
  · intro h
    have := congrArg (fun x => BitVec.getLsbD x 5) h
    simp only [BitVec.getLsbD_and, hb 5 (by decide)] at this
    simpa using this
  · intro h
    apply BitVec.eq_of_getLsbD_eq
    intro i hi
    rw [BitVec.getLsbD_and, hb i hi]
    by_cases e : i = 5
    · subst e; rw [h]; simp
    · simp [e]

theorem noClose_sub {ev mask} (h : ev &&& ~~~mask = 0#32) (hm : NoClose mask) : NoClose ev := by
  rw [noClose_bit] at *
  have := congrArg (fun x => BitVec.getLsbD x 5) h
  simp only [BitVec.getLsbD_and, BitVec.getLsbD_not, hm] at this
  simpa using this

theorem noClose_mask {ev err} (h : buildable ev = true) : NoClose (eventToAfdMask ev err) := by
  have h' : ev.extra.flags.getLsbD 5 = false := noClose_bit.1 (by simpa [buildable, NoClose] using h)
  rw [noClose_bit]
  unfold eventToAfdMask
  rw [BitVec.getLsbD_or, h', Bool.or_false]
  have : ∀ r w e, (propsToAfdMask r w e).getLsbD 5 = false := by decide
  exact this ..

theorem noClose_local {r} (h : ∀ n ev, r = .ok n ev → NoClose ev) : isLocalClose r = false := by
  cases r with
  | ok n ev =>
    have := h n ev rfl
    simp only [isLocalClose, intersects]
    unfold NoClose at this
    rw [this]; simp
  | _ => rfl

/-- No packet has the condition. -/
def Clean : Pkt → Prop
  | .socket s => buildable s.interest = true ∧ (∀ m b, s.op = .inFlight m b → NoClose m) ∧ ∀ n ev, s.op = .done (.ok n ev) → NoClose ev
  | .waitable w => buildable w.interest = true
  | .custom ev => buildable ev = true
  | _ => True

theorem buildable_none (key) : buildable (Event.none key : Event EventExtra) = true := by
  show ((0#32 : BitVec 32) &&& LOCAL_CLOSE == 0#32) = true; decide

theorem clean_eff {c o c'} (h : ∀ p, Clean (c.pk p)) (he : Eff c o c') : ∀ p, Clean (c'.pk p) := by
  have one : ∀ {p : PId} {c' : Core}, (∀ q, q ≠ p → c'.pk q = c.pk q) → Clean (c'.pk p) → ∀ q, Clean (c'.pk q) := by
    intro p c' h1 h2 q
    by_cases e : q = p
    · subst e; exact h2
    · rw [h1 q e]; exact h q
  have hcan : ∀ fault s, Clean (.socket s) → Clean (.socket (cancel fault s).2) := by
    intro fault s hs
    obtain ⟨h1, h2, h3⟩ := hs
    refine ⟨by rw [(cancel_frame fault s).2.1]; exact h1, ?_, ?_⟩
    · intro m b
      unfold cancel
      split
      · exact h2 m b
      · dsimp only
        cases ho : s.op with
        | inFlight m' b' => intro hx; injection hx with hx hy; subst hx; exact h2 _ _ ho
        | _ => nofun
    · intro n ev
      unfold cancel
      split
      · exact h3 n ev
      · dsimp only
        cases ho : s.op with
        | done r => intro hx; exact h3 n ev (ho.trans hx)
        | _ => nofun
  have hup : ∀ fault p, Clean ((update fault c p).2.1.pk p) := by
    intro fault p
    have hp := h p
    rw [update_pkt]
    split
    · rename_i s hs
      rw [hs] at hp
      obtain ⟨h1, h2, h3⟩ := hp
      unfold updateSock startPoll
      dsimp only
      split
      · exact ⟨h1, h2, h3⟩
      split
      · split
        · have := hcan fault s ⟨h1, h2, h3⟩
          rcases hc : cancel fault s with ⟨r, s'⟩
          rw [hc] at this; exact this
        · exact ⟨h1, h2, h3⟩
      · exact ⟨h1, h2, h3⟩
      · split
        · exact ⟨h1, h2, h3⟩
        · split
          · refine ⟨h1, ?_, nofun⟩
            intro m b hx; injection hx with hx hy; subst hx
            exact noClose_mask h1
          · split <;> exact ⟨h1, h2, h3⟩
    · rename_i w hw
      rw [hw] at hp
      show buildable (updateWtb fault w).2.interest = true
      rw [(updateWtb_frame fault w).2.1]; exact hp
    · exact hp
  cases he with
  | quiet h1 _ _ _ => rw [h1]; exact h
  | @insert _ t k fd ev mode ht hpk hn htab hok =>
    intro p
    rw [hpk]; dsimp only
    split
    · have hb : buildable ev = true := by
        simp only [okCall, callBuildable, Bool.and_eq_true] at hok; exact hok.1.1
      unfold newPkt
      split
      · exact ⟨hb, nofun, nofun⟩
      · exact hb
    · exact h p
  | remove _ h1 _ _ => rw [h1]; exact h
  | @set t k fd p ev mode hok =>
    have hb : buildable ev = true := by
      simp only [okCall, callBuildable, Bool.and_eq_true] at hok; exact hok.1.1
    have hp := h p
    unfold setEvents
    split
    · rename_i s hs; rw [hs] at hp
      exact one (p := p) (fun q hq => setPk_other _ _ hq) (by rw [setPk_self]; exact ⟨hb, hp.2.1, hp.2.2⟩)
    · exact one (p := p) (fun q hq => setPk_other _ _ hq) (by rw [setPk_self]; exact hb)
    · exact h
  | @del t k fd p fault =>
    have hp := h p
    refine one (p := p) (beginDelete_frame fault c p).2.2.2.2.2 ?_
    unfold beginDelete
    dsimp only
    split
    · rename_i s hs; rw [hs] at hp
      split
      · dsimp only; rw [hs]; exact hp
      · split
        · rw [setPk_self]; exact hcan fault _ hp
        · rw [setPk_self]; exact hp
    · rename_i w hw; rw [hw] at hp; rw [setPk_self]; exact hp
    · exact hp
  | @update p fault _ _ => exact one (p := p) (update_frame fault c p).2.2.2.2.2 (hup fault p)
  | @feed p k fd ev o hf ho =>
    have hp := h p
    refine one (p := p) (feed_frame c p).2.2.2.2.2 ?_
    rcases feed_cases c p with ⟨s, r, e1, e2, e3, e4⟩ | ⟨s, r, e1, e2, e3, e4, e5⟩ | ⟨s, r, e1, e2, e3, e4, e5⟩ | ⟨w, e1, e5⟩ | ⟨e, e1, e2⟩ |
      ⟨e1, e2⟩ | ⟨e1, e2⟩
    · rw [e4] at hf; cases hf
    · rw [e5] at hf; cases hf
    · rw [e5, setPk_self]
      rw [e1] at hp
      obtain ⟨_, _, _, _, _, f6⟩ := filterEvent_frame s.taken (rawEvent s.interest.key r)
      have f6' : (filterEvent s.taken (rawEvent s.interest.key r)).1.op = .none := f6
      refine ⟨?_, by rw [f6']; nofun, by rw [f6']; nofun⟩
      rcases filterEvent_arm s.taken (rawEvent s.interest.key r) with ⟨hn', hs⟩ | ⟨e, he, hs⟩
      · rw [hs]; exact hp.1
      · rw [hs]; split
        · exact buildable_none _
        · exact hp.1
    · rw [e5, setPk_self]
      rw [e1] at hp
      split
      · exact buildable_none _
      · exact hp
    · rw [e2] at hf; cases hf
    · rw [e2] at hf; cases hf
    · rw [e2] at hf; cases hf
  | @feedQuiet p o hf ho =>
    have hp := h p
    rcases feed_cases c p with ⟨s, r, e1, e2, e3, e4⟩ | ⟨s, r, e1, e2, e3, e4, e5⟩ | ⟨s, r, e1, e2, e3, e4, e5⟩ | ⟨w, e1, e5⟩ | ⟨e, e1, e2⟩ |
      ⟨e1, e2⟩ | ⟨e1, e2⟩
    · rw [e4]; rw [e1] at hp
      exact one (p := p) (fun q hq => setPk_other _ _ hq) (by rw [setPk_self]; exact ⟨hp.1, nofun, nofun⟩)
    · rw [e5]; rw [e1] at hp
      exact one (p := p) (fun q hq => setPk_other _ _ hq) (by rw [setPk_self]; exact ⟨hp.1, nofun, nofun⟩)
    · rw [e5] at hf; exact absurd rfl (hf _ _ _)
    · rw [e5] at hf; exact absurd rfl (hf _ _ _)
    · rw [e2]; exact h
    · rw [e2]; exact h
    · rw [e2]; exact h
  | @drop p o ho =>
    refine one (p := p) (dropEntry_frame c p).2.2.2.2.2 ?_
    show Clean ((dropEntry c p).pk p)
    rw [dropEntry_pkt]
    have hx := h p
    split
    · rename_i s hs; rw [hs] at hx
      exact ⟨hx.1, nofun, nofun⟩
    · exact hx
  | packet hpk hn htab hb =>
    intro p
    rw [hpk]; dsimp only
    split
    · exact hb
    · exact h p
  | @complete _ p k mask cancelling r hp hop hr hpk hn htab =>
    have hc := h p
    rw [hp] at hc
    rw [hpk]
    refine one (p := p) (fun q hq => setPk_other _ _ hq) ?_
    rw [setPk_self]
    refine ⟨hc.1, nofun, ?_⟩
    intro n ev hx
    injection hx with hx
    exact noClose_sub (hr n ev hx) (hc.2.1 _ _ hop)
  | @wtb _ p w status hp hpk hn htab =>
    have hc := h p
    rw [hp] at hc
    rw [hpk]
    exact one (p := p) (fun q hq => setPk_other _ _ hq) (by rw [setPk_self]; exact hc)

theorem reach_clean {threads P s tr} (h : Reach threads P s tr) : ∀ p, Clean (s.c.pk p) := by
  induction h with
  | init =>
    intro p
    show Clean (if p = NOTIFIER then Pkt.wakeup else Pkt.free)
    split <;> trivial
  | step h _ hs ih => exact clean_eff ih (reach_eff h hs)

/-- Taking a completion never finds the condition. -/
theorem feed_not_stuck {threads P s tr} (h : Reach threads P s tr) (p : PId) : (feed s.c p).1 ≠ .localClose := by
  have hc := reach_clean h p
  rcases feed_cases s.c p with ⟨s, r, e1, e2, e3, e4⟩ | ⟨s, r, e1, e2, e3, e4, e5⟩ | ⟨s, r, e1, e2, e3, e4, e5⟩ | ⟨w, e1, e5⟩ | ⟨e, e1, e2⟩ |
      ⟨e1, e2⟩ | ⟨e1, e2⟩
  · rw [e4]; nofun
  · rw [e1] at hc
    rw [noClose_local (fun n ev hr => hc.2.2 n ev (by rw [e2, hr]))] at e4
    cases e4
  · rw [e5]; nofun
  · rw [e5]; nofun
  · rw [e2]; nofun
  · rw [e2]; nofun
  · rw [e2]; nofun

/-- `wait` never panics and never waits for itself. -/
theorem reach_not_stuck {threads P s tr} (h : Reach threads P s tr) : s.phase ≠ .stuck := by
  induction h with
  | init => nofun
  | @step s tr a s' o h _ hs ih =>
    have hf := feed_not_stuck h
    cases a with
    | wait fault =>
      simp only [step, goWait, waitFail] at hs
      repeat' split at hs
      all_goals cases hs
      all_goals first
        | (rename_i hfd; intro _; exact hf _ (congrArg Prod.fst hfd))
        | nofun
    | _ =>
      simp only [step, goCall] at hs
      repeat' split at hs
      all_goals cases hs
      all_goals first | exact ih | nofun

end Polling.IocpM
