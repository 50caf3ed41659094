import Verif.Proof.PacketRcInv
import Verif.Proof.IocpWtb

/-! Which steps lose references. -/

namespace Polling.IocpM.Rc
open Iocp IocpSpec

/-- No wait of the packet is registered, and none will be. -/
def Busy : Pkt → Prop
  | .waitable w => w.status ≠ .idle ∧ w.registered = false
  | _ => False

theorem busy_setPk {c : Core} {p q k} (h : Busy (c.pk p)) (hk : q = p → Busy k) : Busy ((setPk c q k).pk p) := by
  by_cases e : p = q
  · subst e; rw [setPk_self]; exact hk rfl
  · rw [setPk_other _ _ e]; exact h

theorem busy_update {fault c q p} (h : Busy (c.pk p)) : Busy ((update fault c q).2.1.pk p) := by
  unfold update
  split
  · rename_i hq
    exact busy_setPk h (by rintro rfl; rw [hq] at h; exact absurd h id)
  · rename_i w hq
    refine busy_setPk h ?_
    rintro rfl
    rw [hq] at h
    unfold updateWtb
    split
    · exact h
    · rw [if_pos h.1]
      exact h
  · exact h

theorem busy_ustep {fault c u c' out o p} (hu : ustep fault c u = (c', out, o)) (h : Busy (c.pk p)) : Busy (c'.pk p) := by
  cases u with
  | load q => simp only [ustep] at hu; cases hu; exact h
  | run q => simp only [ustep] at hu; cases hu; exact busy_update h
  | push q => simp only [ustep] at hu; split at hu <;> (cases hu; exact h)
  | pop q m => simp only [ustep] at hu; split at hu <;> (cases hu; exact h)
  | drain q m r => simp only [ustep] at hu; cases hu; exact busy_update h

theorem busy_setEvents {c q ev mode p} (h : Busy (c.pk p)) : Busy ((setEvents c q ev mode).2.pk p) := by
  unfold setEvents
  split
  · rename_i hq
    exact busy_setPk h (by rintro rfl; rw [hq] at h; exact absurd h id)
  · rename_i w hq
    exact busy_setPk h (by rintro rfl; rw [hq] at h; exact h)
  · exact h

theorem busy_beginDelete {fault c q p} (h : Busy (c.pk p)) : Busy ((beginDelete fault c q).2.pk p) := by
  unfold beginDelete
  split
  · rename_i hq
    have : ∀ k, Busy ((setPk c q k).pk p) := fun k => busy_setPk h (by rintro rfl; rw [hq] at h; exact absurd h id)
    dsimp only
    split
    · exact h
    · split
      · exact this _
      · exact this _
  · rename_i w hq
    exact busy_setPk h (fun _ => ⟨nofun, rfl⟩)
  · exact h

theorem busy_feed {c q p} (h : Busy (c.pk p)) : Busy ((feed c q).2.pk p) := by
  have hs : ∀ s, c.pk q = .socket s → ∀ k, Busy ((setPk c q k).pk p) :=
    fun s hq k => busy_setPk h (by rintro rfl; rw [hq] at h; exact absurd h id)
  rcases feed_cases c q with ⟨s, r, e1, e2, e3, e4⟩ | ⟨s, r, e1, e2, e3, e4, e5⟩ | ⟨s, r, e1, e2, e3, e4, e5⟩ | ⟨w, e1, e5⟩ | ⟨e, e1, e2⟩ |
      ⟨e1, e2⟩ | ⟨e1, e2⟩
  · rw [e4]; exact hs _ e1 _
  · rw [e5]; exact hs _ e1 _
  · rw [e5]; exact hs _ e1 _
  · rw [e5]
    refine busy_setPk h ?_
    rintro rfl
    rw [e1] at h
    split
    · exact h
    · exact h
  · rw [e2]; exact h
  · rw [e2]; exact h
  · rw [e2]; exact h

theorem busy_drop {p} (batch : List PId) : ∀ {c : Core}, Busy (c.pk p) → Busy ((dropEntries c batch).pk p) := by
  induction batch with
  | nil => intro c h; exact h
  | cons q batch ih =>
    intro c h
    refine ih (c := dropEntry c q) ?_
    unfold dropEntry
    split
    · rename_i hq
      exact busy_setPk h (by rintro rfl; rw [hq] at h; exact absurd h id)
    · exact h

/-- Only a callback ends this. -/
theorem busy_step {n s a s' o p} (hs : step n s a = some (s', o)) (hnew : s.c.next ≠ p) (ha : a ≠ .callback p) (h : Busy (s.c.pk p)) :
    Busy (s'.c.pk p) := by
  cases a with
  | go t fault =>
    simp only [step, goCall] at hs
    split at hs
    · cases hs
    split at hs
    · split at hs <;> (cases hs; exact h)
    · split at hs
      · split at hs
        · cases hs; exact h
        · cases hs
          exact busy_setPk h (fun e => absurd e hnew)
      · split at hs <;> (cases hs; exact h)
      · split at hs <;> (cases hs; exact h)
    · split at hs
      · cases hs; exact busy_setEvents h
      · cases hs
    · cases hs; exact busy_beginDelete h
    · split at hs
      · rename_i hu; cases hs; exact busy_ustep hu h
      · rename_i hu; cases hs; exact busy_ustep hu h
    · cases hs; exact h
    · cases hs
  | newPacket ev =>
    simp only [step] at hs
    split at hs
    · cases hs
    · cases hs; exact busy_setPk h (fun e => absurd e hnew)
  | wait fault =>
    simp only [step, goWait] at hs
    split at hs
    · cases hs; exact h
    · cases hs; exact h
    · split at hs <;> (cases hs; exact h)
    · rename_i w q hp
      have := busy_update (fault := fault) (q := q) h
      split at hs
      · rename_i he; rw [he] at this; cases hs; exact this
      · rename_i he; rw [he] at this; cases hs; exact this
    · cases hs; exact h
    · unfold waitFail at hs; split at hs <;> (cases hs; exact h)
    · unfold waitFail at hs; split at hs <;> (cases hs; exact h)
    · rename_i q _ _; cases hs; exact busy_drop [q] h
    · rename_i w q batch hp
      have := busy_feed (q := q) h
      split at hs
      all_goals rename_i he; rw [he] at this; cases hs; exact this
    · split at hs
      · rename_i hu; cases hs; exact busy_ustep hu h
      · rename_i hu; cases hs; exact busy_ustep hu h
      · rename_i hu; cases hs; exact busy_ustep hu h
    · cases hs; exact h
    · cases hs
  | complete q r =>
    simp only [step] at hs
    split at hs
    · rename_i k hk
      split at hs
      · split at hs
        · cases hs
          exact busy_setPk h (by rintro rfl; rw [hk] at h; exact absurd h id)
        · cases hs
      · cases hs
    · cases hs
  | fire q =>
    simp only [step] at hs
    split at hs
    · rename_i w hw
      split at hs
      · rename_i hreg
        cases hs
        refine busy_setPk h ?_
        rintro rfl
        rw [hw] at h
        exact ⟨h.1, rfl⟩
      · cases hs
    · cases hs
  | callback q =>
    have hq : q ≠ p := fun e => ha (by rw [e])
    simp only [step] at hs
    split at hs
    · split at hs
      · cases hs; exact busy_setPk h (fun e => absurd e hq)
      · cases hs
    · cases hs
  | callbackPost q fault =>
    simp only [step] at hs
    split at hs
    · cases hs; dsimp only; split <;> exact h
    · cases hs
  | _ =>
    simp only [step] at hs
    repeat' split at hs
    all_goals cases hs
    all_goals exact h


theorem cb_frame {n s a s' o} (hs : step n s a = some (s', o)) (h1 : ∀ p, a ≠ .fire p) (h2 : ∀ p, a ≠ .callback p) : s'.cb = s.cb := by
  cases a with
  | fire p => exact absurd rfl (h1 p)
  | callback p => exact absurd rfl (h2 p)
  | go t fault =>
    simp only [step, goCall] at hs
    repeat' split at hs
    all_goals cases hs
    all_goals rfl
  | wait fault =>
    simp only [step, goWait, waitFail] at hs
    repeat' split at hs
    all_goals cases hs
    all_goals rfl
  | _ =>
    simp only [step] at hs
    repeat' split at hs
    all_goals cases hs
    all_goals rfl

/-- While the callback of a wait is under way, the packet has no other wait. -/
theorem reach_busy {n P s tr} (h : IocpM.Reach n P s tr) (p : PId) : s.cb.count p ≤ 1 ∧ (p ∈ s.cb → Busy (s.c.pk p)) := by
  induction h with
  | init => exact ⟨Nat.zero_le _, nofun⟩
  | @step s tr a s' o hr hp hs ih =>
    have hnew : p ∈ s.cb → s.c.next ≠ p := by
      intro hm e
      have := (reach_cb hr).2 p (by simp [hm])
      rw [(reach_ei hr).low p (by omega)] at this
      cases this
    by_cases hf : ∃ q, a = .fire q
    · obtain ⟨q, rfl⟩ := hf
      by_cases e : q = p
      · subst e
        simp only [step] at hs
        split at hs
        · rename_i w hw
          split at hs
          · rename_i hreg
            cases hs
            have hni : q ∉ s.cb := by
              intro hm
              have := ih.2 hm
              rw [hw] at this
              rw [this.2] at hreg; cases hreg
            refine ⟨?_, fun _ => ?_⟩
            · dsimp only; rw [List.count_cons_self, List.count_eq_zero.2 hni]; exact Nat.le_refl _
            · dsimp only
              rw [setPk_self]
              have := reach_wok hr q
              rw [hw] at this
              exact ⟨by rw [this hreg]; nofun, rfl⟩
          · cases hs
        · cases hs
      · have hb := fun hm => busy_step hs (hnew hm) (by nofun) (ih.2 hm)
        simp only [step] at hs
        split at hs
        · split at hs
          · cases hs
            refine ⟨by dsimp only; rw [List.count_cons_of_ne e]; exact ih.1, fun hm => hb ?_⟩
            rcases List.mem_cons.1 hm with h | h
            · exact absurd h.symm e
            · exact h
          · cases hs
        · cases hs
    by_cases hc : ∃ q, a = .callback q
    · obtain ⟨q, rfl⟩ := hc
      by_cases e : q = p
      · subst e
        simp only [step] at hs
        split at hs
        · split at hs
          · cases hs
            have : (s.cb.erase q).count q = 0 := by rw [List.count_erase_self]; have := ih.1; omega
            exact ⟨by dsimp only; omega, fun hm => absurd hm (List.count_eq_zero.1 this)⟩
          · cases hs
        · cases hs
      · have hb := fun hm => busy_step hs (hnew hm) (by intro h; cases h; exact e rfl) (ih.2 hm)
        simp only [step] at hs
        split at hs
        · split at hs
          · cases hs
            refine ⟨by dsimp only; rw [List.count_erase_of_ne (Ne.symm e)]; exact ih.1, fun hm => hb (List.mem_of_mem_erase hm)⟩
          · cases hs
        · cases hs
    · have hcb := cb_frame hs (fun q h => hf ⟨q, h⟩) (fun q h => hc ⟨q, h⟩)
      rw [hcb]
      exact ⟨ih.1, fun hm => busy_step hs (hnew hm) (fun h => hc ⟨p, h⟩) (ih.2 hm)⟩

/-- The places other than local variables that have the packet. -/
theorem core_zero {c : Core} {p : PId} (hi : ∀ k fd p, c.table k fd = some p → ident (c.pk p) = some (k, fd)) :
    coreRefs c p = 0 ↔ (∀ k fd, c.table k fd ≠ some p) ∧ p ∉ c.pending ∧ p ∉ c.port ∧
      (∀ k, c.pk p = .socket k → ∀ m b, k.op ≠ .inFlight m b) ∧ (∀ w, c.pk p = .waitable w → w.registered = false) := by
  have ht : (if inTable c p then 1 else 0) = 0 ↔ ∀ k fd, c.table k fd ≠ some p := by
    rw [inTable_ident]
    constructor
    · intro h k fd he
      rw [hi k fd p he] at h
      simp [he] at h
    · intro h
      cases hid : ident (c.pk p) with
      | none => rfl
      | some kf => simp [h kf.1 kf.2]
  have hk : kern (c.pk p) = 0 ↔ (∀ k, c.pk p = .socket k → ∀ m b, k.op ≠ .inFlight m b) ∧ (∀ w, c.pk p = .waitable w → w.registered = false) := by
    cases hp : c.pk p with
    | socket k =>
      cases ho : k.op with
      | inFlight m b =>
        simp only [kern, ho]
        exact ⟨nofun, fun h => absurd ho (h.1 k rfl m b)⟩
      | _ => simp [kern, ho]
    | waitable w => cases hr : w.registered <;> simp [kern, hr]
    | _ => simp [kern]
  have h1 := List.count_eq_zero (a := p) (l := c.pending)
  have h2 := List.count_eq_zero (a := p) (l := c.port)
  unfold coreRefs
  rw [← ht, ← hk, ← h1, ← h2]
  omega

theorem update_lost_none (c p) : updateLost none c p = [] := rfl

theorem ustep_lost_none (c u) : ustepLost none c u = [] := by cases u <;> rfl

theorem wait_lost_none (s) : waitLost s none = [] := by
  unfold waitLost
  split
  · rfl
  · exact ustep_lost_none _ _
  · rfl

/-- References that are lost stay lost. -/
theorem lost_mono {n r a r'} (hs : rstep n r a = some r') (q : PId) : r.lost q ≤ r'.lost q := by
  cases a with
  | act a =>
    simp only [rstep] at hs
    split at hs
    · split at hs
      · obtain ⟨x, _, rfl⟩ := Option.map_eq_some_iff.1 hs
        exact Nat.le_add_right _ _
      · cases hs
    · cases a <;> simp only [deadStep] at hs
      case complete p res => obtain ⟨x, _, rfl⟩ := Option.map_eq_some_iff.1 hs; exact Nat.le_add_right _ _
      case fire p => obtain ⟨x, _, rfl⟩ := Option.map_eq_some_iff.1 hs; exact Nat.le_refl _
      case callback p => split at hs <;> cases hs; exact Nat.le_refl _
      case callbackPost p fault => obtain ⟨x, _, rfl⟩ := Option.map_eq_some_iff.1 hs; exact Nat.le_add_right _ _
      case newPacket ev => obtain ⟨x, _, rfl⟩ := Option.map_eq_some_iff.1 hs; exact Nat.le_refl _
      all_goals cases hs
  | userClone p =>
    simp only [rstep] at hs
    split at hs <;> cases hs
    exact Nat.le_refl _
  | userDrop p =>
    simp only [rstep] at hs
    split at hs <;> cases hs
    exact Nat.le_refl _
  | dropPoller =>
    simp only [rstep, dropPoller] at hs
    split at hs <;> cases hs
    exact Nat.le_add_right _ _

theorem runR_mono {n} : ∀ {as r r'}, runR n r as = some r' → ∀ q, r.lost q ≤ r'.lost q
  | [], r, r', h, q => by cases h; exact Nat.le_refl _
  | a :: as, r, r', h, q => by
    simp only [runR] at h
    obtain ⟨r1, h1, h2⟩ := Option.bind_eq_some_iff.1 h
    exact Nat.le_trans (lost_mono h1 q) (runR_mono h2 q)

theorem runR_inv {n} : ∀ {as r r'}, Inv n r → runR n r as = some r' → Inv n r'
  | [], r, r', hi, h => by cases h; exact hi
  | a :: as, r, r', hi, h => by
    simp only [runR] at h
    obtain ⟨r1, h1, h2⟩ := Option.bind_eq_some_iff.1 h
    exact runR_inv (inv_step hi h1) h2

end Polling.IocpM.Rc
