import Verif.Model.IocpClock
import Verif.Proof.HandLapse
import Verif.Proof.HandIocp

/-! Empty-handed waits are paid for by notifications, or their time is over: IOCP. -/

namespace Polling.IocpM
open Iocp IocpSpec Spec

/-! ### Payment, by the machine without a clock -/

structure LInv (n : Nat) (s : S) (l : List HandL) : Prop where
  tags : Tags s.c
  calls : ∀ t call, regAt (s.pc t) = some call → KeyOk call
  phase : ∃ b, PhaseOk b s.phase
  pay : unexcused l + s.c.port.count NOTIFIER + bag s.phase + tok (excused l) s.phase + cnt n posts s.pc ≤ notifiesL l

/-- Neither the phase nor the number of notifications changes. -/
theorem LInv.other {n s s' l} (h : LInv n s l) (ht : Tags s'.c) (hc : ∀ t call, regAt (s'.pc t) = some call → KeyOk call)
    (hph : s'.phase = s.phase) (hport : s'.c.port.count NOTIFIER + cnt n posts s'.pc ≤ s.c.port.count NOTIFIER + cnt n posts s.pc) : LInv n s' l := by
  have := h.pay
  exact ⟨ht, hc, by rw [hph]; exact h.phase, by rw [hph]; omega⟩

/-- A step of `wait`. -/
theorem LInv.go {n s s' l b} (h : LInv n s l) (ht : ∀ q, tag (s'.c.pk q) = tag (s.c.pk q)) (hc : s'.pc = s.pc) (hph : PhaseOk b s'.phase)
    (hpay : s'.c.port.count NOTIFIER + bag s'.phase + tok (excused l) s'.phase ≤ s.c.port.count NOTIFIER + bag s.phase + tok (excused l) s.phase) : LInv n s' l := by
  have := h.pay
  exact ⟨h.tags.same ht, by rw [hc]; exact h.calls, ⟨b, hph⟩, by rw [hc]; omega⟩

/-- What is seen of a step; `to`: the timeout, if a `wait` begins. -/
def evL (s : S) (to : Option Nat) (a : Act) (o : IObs) : Option HandL :=
  match a, o with
  | .notifyCas _, _ => some (.see .notify)
  | .waitBegin _ _, _ => some (.see (.wait to))
  | _, .waitOk n _ => some (.see (.back n))
  | a, _ => if IocpC.gaveUp s a then some .lapse else none

theorem LInv.step {n : Nat} {s s' : S} {tr : List IObs} {l : List HandL} {a : Act} {o : IObs} (hr : Reach n Any s tr) (h : LInv n s l) (hP : Proper a)
    (hs : IocpM.step n s a = some (s', o)) (to : Option Nat) : LInv n s' ((evL s to a o).toList ++ l) := by
  have hp := h.pay
  obtain ⟨b, hph⟩ := h.phase
  have notNotifier : ∀ p, s.c.pk p ≠ .wakeup → [p].count NOTIFIER = 0 := by
    intro p hpk
    rw [List.count_singleton, if_neg]
    intro he
    have := (reach_ti hr).wake
    rw [← (beq_iff_eq.1 he)] at this
    exact hpk this
  have moved : ∀ {t p}, t < n → posts (s.pc t) = posts p → s'.pc = upd s.pc t p → cnt n posts s'.pc = cnt n posts s.pc := by
    intro t p ht h1 h2
    have := cnt_upd posts s.pc ht p
    rw [h2]
    unfold upd
    rw [h1] at this
    omega
  have none_ : ∀ {p : Pc}, regAt p = none → ∀ call, regAt p = some call → KeyOk call := by
    intro p hp call hc; rw [hp] at hc; cases hc
  have unseen : (∀ n evs, o ≠ .waitOk n evs) → (∀ t, a ≠ .notifyCas t) → (∀ b cap, a ≠ .waitBegin b cap) → (∀ e, a ≠ .decide e) → LInv n s' l → LInv n s' ((evL s to a o).toList ++ l) := by
    intro h1 h2 h3 h5 h4
    have : evL s to a o = none := by
      unfold evL
      split
      · exact absurd rfl (h2 _)
      · exact absurd rfl (h3 _ _)
      · exact absurd rfl (h1 _ _)
      · rw [if_neg]
        unfold IocpC.gaveUp
        split
        · exact absurd rfl (h5 _)
        · exact Bool.false_ne_true
    rw [this]; exact h4
  cases a with
  | call t call =>
    simp only [IocpM.step] at hs
    split at hs
    · cases hs
    rename_i ht
    split at hs
    rotate_left
    · cases hs
    rename_i hout
    split at hs
    · cases hs
    split at hs
    · cases hs; exact h
    rename_i hres
    split at hs
    · cases hs; exact h
    cases hs
    have hk : KeyOk call := by
      have hP : callSock call = false → KeyOk call := hP
      cases call with
      | add k fd ev m =>
        cases k with
        | false => exact hP rfl
        | true => exact fun e => hres (by simp [reserved, e])
      | modify k fd ev m =>
        cases k with
        | false => exact hP rfl
        | true => exact fun e => hres (by simp [reserved, e])
      | delete k fd => trivial
    refine h.other h.tags (calls_upd h.calls ?_) rfl ?_
    · intro c hc
      split at hc <;> cases hc <;> exact hk
    · exact Nat.le_of_eq (congrArg _ (moved (t := t) (Nat.lt_of_not_le ht) (by rw [hout]; split <;> rfl) rfl))
  | go t fault =>
    simp only [IocpM.step] at hs
    split at hs
    · cases hs
    rename_i ht
    obtain ⟨h1, h2, h3, h4, p, h5, h6, h7⟩ := goCall_notify hs
    obtain ⟨k1, k2, k3⟩ := goCall_keys h.tags h.calls hs
    have hpost : ∀ p, p ≠ Pc.notify → posts p = false := by intro p hp; cases p <;> first | rfl | exact absurd rfl hp
    refine unseen k3 nofun nofun nofun (h.other k1 k2 h2 ?_)
    rw [moved (t := t) (by omega) (by rw [hpost _ h7, hpost _ h6]) h5, h3]
    exact Nat.le_refl _
  | newPacket ev =>
    simp only [IocpM.step] at hs
    split at hs <;> cases hs
    have : Tags (setPk s.c s.c.next (.custom ev)) := h.tags.setPk _ ⟨by have : ev.key ≠ NOTIFY_KEY := hP; simpa [tag] using this, nofun⟩
    exact h.other this h.calls rfl (Nat.le_refl _)
  | post p fault =>
    simp only [IocpM.step] at hs
    split at hs
    · rename_i ev hpk
      split at hs <;> cases hs
      · exact h
      · refine h.other h.tags h.calls rfl ?_
        show (s.c.port ++ [p]).count NOTIFIER + _ ≤ _
        rw [List.count_append, notNotifier p (by rw [hpk]; nofun)]
        exact Nat.le_refl _
    · cases hs
  | notifyCas t =>
    have e1 : unexcused (.see .notify :: l) = unexcused l := rfl
    have e2 : notifiesL (.see .notify :: l) = notifiesL l + 1 := rfl
    simp only [IocpM.step] at hs
    split at hs
    · cases hs
    rename_i ht
    split at hs
    · rename_i hout
      split at hs
      · cases hs
        refine ⟨h.tags, h.calls, h.phase, ?_⟩
        show unexcused (.see .notify :: l) + s.c.port.count NOTIFIER + bag s.phase + tok (excused l) s.phase + cnt n posts s.pc ≤ notifiesL (.see .notify :: l)
        omega
      · cases hs
        have := cnt_upd posts s.pc (Nat.lt_of_not_le ht) .notify
        rw [hout] at this
        refine ⟨h.tags, calls_upd h.calls (none_ rfl), h.phase, ?_⟩
        show unexcused (.see .notify :: l) + s.c.port.count NOTIFIER + bag s.phase + tok (excused l) s.phase + cnt n posts (upd s.pc t .notify) ≤ notifiesL (.see .notify :: l)
        unfold upd
        simp only [posts, Bool.toNat_true, Bool.toNat_false] at this
        omega
    · cases hs
  | notifyPost t fault =>
    simp only [IocpM.step] at hs
    split at hs
    · rename_i hnot
      have ht : t < n := by
        by_cases ht : t < n
        · exact ht
        · rw [reach_threads hr t (by omega)] at hnot; cases hnot
      have := cnt_upd posts s.pc ht .out
      rw [hnot] at this
      simp only [posts, Bool.toNat_true, Bool.toNat_false] at this
      split at hs <;> cases hs
      · refine h.other h.tags (calls_upd h.calls (none_ rfl)) rfl ?_
        show s.c.port.count NOTIFIER + cnt n posts (upd s.pc t .out) ≤ _
        unfold upd
        omega
      · refine h.other h.tags (calls_upd h.calls (none_ rfl)) rfl ?_
        show (s.c.port ++ [NOTIFIER]).count NOTIFIER + cnt n posts (upd s.pc t .out) ≤ _
        unfold upd
        rw [List.count_append, List.count_singleton_self]
        omega
    · cases hs
  | waitBegin timed cap =>
    simp only [IocpM.step] at hs
    split at hs
    · next hi =>
      split at hs <;> cases hs
      rw [hi] at hp
      refine ⟨h.tags, h.calls, ⟨timed, rfl⟩, ?_⟩
      have e2 : notifiesL (.see (.wait to) :: l) = notifiesL l := rfl
      show unexcused l + s.c.port.count NOTIFIER + 0 + 0 + cnt n posts s.pc ≤ notifiesL (.see (.wait to) :: l)
      rw [e2]; exact hp
    · cases hs
  | waitBusy =>
    simp only [IocpM.step] at hs
    split at hs <;> cases hs
    exact h
  | wait fault =>
    simp only [IocpM.step, goWait, waitFail] at hs
    split at hs
    · rename_i timed cap hph'
      rw [hph'] at hph
      cases hs
      exact h.go (fun _ => rfl) rfl ⟨hph, ⟨⟨nofun⟩, Nat.le_refl _⟩⟩ (by rw [hph']; exact Nat.le_refl _)
    · rename_i w hph'
      rw [hph'] at hph
      cases hs
      exact h.go (fun _ => rfl) rfl ⟨hph.1, ⟨hph.2.buf, Nat.zero_le _⟩⟩ (by rw [hph']; exact Nat.le_refl _)
    · rename_i w hph'
      rw [hph'] at hph
      split at hs <;> cases hs <;> exact h.go (fun _ => rfl) rfl hph (by rw [hph']; exact Nat.le_refl _)
    · rename_i w q hph'
      rw [hph'] at hph
      have hfr := (update_frame fault s.c q).2.2.2.2.1
      have htg := update_tag fault s.c q
      have ho := uobs_updateObs
      split at hs
      · rename_i hu; rw [hu] at hfr htg; cases hs
        refine unseen (fun k evs e => ?_) nofun nofun nofun (h.go htg rfl hph (by rw [hph']; exact Nat.le_of_eq (congrArg (fun x : List PId => x.count NOTIFIER + _ + _) hfr)))
        have := ho q ‹_›; rw [e] at this; cases this
      · rename_i hu; rw [hu] at hfr htg; cases hs
        refine unseen (fun k evs e => ?_) nofun nofun nofun (h.go htg rfl hph (by rw [hph']; exact Nat.le_of_eq (congrArg (fun x : List PId => x.count NOTIFIER + _ + _) hfr)))
        have := ho q ‹_›; rw [e] at this; cases this
    · rename_i w batch hph'
      rw [hph'] at hph
      cases hs
      exact h.go (fun _ => rfl) rfl hph (by rw [hph']; exact Nat.le_refl _)
    · rename_i w e hph'
      rw [hph'] at hph
      split at hs <;> cases hs
      · exact h.go (fun _ => rfl) rfl hph.1 (by rw [hph']; exact Nat.add_le_add_right (Nat.add_le_add_left (Nat.zero_le _) _) _)
      · exact h.go (b := b) (fun _ => rfl) rfl trivial (by rw [hph']; exact Nat.add_le_add_right (Nat.add_le_add_left (Nat.zero_le _) _) _)
    · rename_i w e hph'
      rw [hph'] at hph
      split at hs <;> cases hs
      · exact h.go (fun _ => rfl) rfl hph.1 (by rw [hph']; exact Nat.add_le_add_right (Nat.add_le_add_left (Nat.zero_le _) _) _)
      · exact h.go (b := b) (fun _ => rfl) rfl trivial (by rw [hph']; exact Nat.add_le_add_right (Nat.add_le_add_left (Nat.zero_le _) _) _)
    · rename_i w e q batch hph'
      rw [hph'] at hph
      cases hs
      refine h.go (drop_tag s.c q) rfl hph ?_
      show (dropEntry s.c q).port.count NOTIFIER + (batch.count NOTIFIER + w.notified.toNat) + 0 ≤ _
      rw [hph', (dropEntry_frame s.c q).2.2.2.2.1]
      show _ ≤ s.c.port.count NOTIFIER + ((q :: batch).count NOTIFIER + w.notified.toNat) + 0
      have := (List.sublist_cons_self q batch).count_le NOTIFIER
      omega
    · rename_i w q batch hph'
      rw [hph'] at hph
      have hfr := (feed_frame s.c q).2.2.2.2.1
      obtain ⟨t1, t2, t3, t4⟩ := feed_tag s.c q
      have hcons := (List.sublist_cons_self q batch).count_le NOTIFIER
      have htag := h.tags q
      split at hs
      · rename_i c hu; rw [hu] at hfr t1; cases hs
        refine h.go t1 rfl hph ?_
        show c.port.count NOTIFIER + (batch.count NOTIFIER + w.notified.toNat) + 0 ≤ _
        rw [hph', show c.port = s.c.port from hfr]
        show _ ≤ s.c.port.count NOTIFIER + ((q :: batch).count NOTIFIER + w.notified.toNat) + 0
        omega
      · rename_i c hu; rw [hu] at hfr t1 t2; cases hs
        have hq : q = NOTIFIER := htag.2 (by rw [t2 rfl]; rfl)
        refine h.go t1 rfl ⟨hph.1, ⟨hph.2.buf, hph.2.some⟩⟩ ?_
        show c.port.count NOTIFIER + (batch.count NOTIFIER + 1) + 0 ≤ _
        rw [hph', show c.port = s.c.port from hfr]
        show _ ≤ s.c.port.count NOTIFIER + ((q :: batch).count NOTIFIER + w.notified.toNat) + 0
        rw [hq, List.count_cons_self]
        omega
      · rename_i c ev hu; rw [hu] at hfr t1 t3; cases hs
        have hk := t3 _ rfl
        rw [hk] at htag
        have hkey : EvOk (some ‹Event EventExtra›) := by
          intro e he e2; cases he; exact htag.1 (by rw [e2])
        refine h.go t1 rfl ⟨hph.1, hph.2.add hkey⟩ ?_
        show List.count NOTIFIER (Core.port _) + (batch.count NOTIFIER + w.notified.toNat) + 0 ≤ _
        rw [hph', hfr]
        show _ ≤ s.c.port.count NOTIFIER + ((q :: batch).count NOTIFIER + w.notified.toNat) + 0
        omega
      · rename_i c hu; rw [hu] at hfr t1; cases hs
        refine h.go (b := b) t1 rfl trivial ?_
        show c.port.count NOTIFIER + 0 + 0 ≤ _
        rw [hph', show c.port = s.c.port from hfr]
        exact Nat.add_le_add_right (Nat.add_le_add_left (Nat.zero_le _) _) _
      · rename_i c k fd ev hu; rw [hu] at hfr t1 t4; cases hs
        have hkey : EvOk ‹Option (Event EventExtra)› := by
          intro e he e2
          have hk := t4 _ _ e (by rw [he])
          rw [hk, e2] at htag
          exact htag.1 rfl
        refine unseen (fun k evs e => ?_) nofun nofun nofun (h.go t1 rfl ⟨hph, hkey⟩ ?_)
        · split at e <;> cases e
        show List.count NOTIFIER (Core.port _) + (batch.count NOTIFIER + w.notified.toNat) + 0 ≤ _
        rw [hph', hfr]
        show _ ≤ s.c.port.count NOTIFIER + ((q :: batch).count NOTIFIER + w.notified.toNat) + 0
        omega
    · rename_i w batch u ev hph'
      rw [hph'] at hph
      split at hs
      · rename_i c u' o' hu; cases hs
        have hU := uobs_ustep hu
        refine unseen (fun k evs e => ?_) nofun nofun nofun (h.go (ustep_tag hu) rfl hph ?_)
        · rw [e] at hU; cases hU
        · rw [hph']; exact Nat.le_of_eq (congrArg (fun x : List PId => x.count NOTIFIER + _ + _) (ustep_frame hu).2.2.2)
      · rename_i c o' hu; cases hs
        have hU := uobs_ustep hu
        refine unseen (fun k evs e => ?_) nofun nofun nofun (h.go (b := b) (ustep_tag hu) rfl ⟨by rw [(addEvent_frame w ev).1]; exact hph.1.1, hph.1.2.add hph.2⟩ ?_)
        · rw [e] at hU; cases hU
        · rw [hph']
          show _ + (batch.count NOTIFIER + (addEvent w ev).notified.toNat) + 0 ≤ _
          rw [(addEvent_frame w ev).2]
          exact Nat.le_of_eq (congrArg (fun x : List PId => x.count NOTIFIER + _ + _) (ustep_frame hu).2.2.2)
      · rename_i c e o' hu; cases hs
        have hU := uobs_ustep hu
        refine unseen (fun k evs e => ?_) nofun nofun nofun (h.go (ustep_tag hu) rfl hph.1 ?_)
        · rw [e] at hU; cases hU
        · rw [hph']; exact Nat.le_of_eq (congrArg (fun x : List PId => x.count NOTIFIER + _ + _) (ustep_frame hu).2.2.2)
    · rename_i evs hph'
      rw [hph'] at hp
      cases hs
      refine ⟨h.tags, h.calls, ⟨false, trivial⟩, ?_⟩
      have e2 : notifiesL (.see (.back (visible evs).length) :: l) = notifiesL l := rfl
      show unexcused (.see (.back (visible evs).length) :: l) + s.c.port.count NOTIFIER + 0 + 0 + cnt n posts s.pc ≤ notifiesL (.see (.back (visible evs).length) :: l)
      rw [e2]
      simp only [bag, tok] at hp
      cases hv : visible evs with
      | nil =>
        rw [hv] at hp
        show unexcused l + (if excused l then 0 else 1) + _ + 0 + 0 + _ ≤ _
        cases hb : excused l <;> rw [hb] at hp <;> simp at hp ⊢ <;> omega
      | cons x y =>
        rw [hv] at hp
        show unexcused l + _ + 0 + 0 + _ ≤ _
        simp at hp ⊢; omega
    · cases hs
  | get =>
    simp only [IocpM.step] at hs
    split at hs
    · rename_i w hph'
      rw [hph'] at hph
      split at hs <;> cases hs
      refine h.go (fun _ => rfl) rfl hph ?_
      show (s.c.port.drop w.cap).count NOTIFIER + ((s.c.port.take w.cap).count NOTIFIER + w.notified.toNat) + 0 ≤ _
      rw [hph']
      show _ ≤ s.c.port.count NOTIFIER + w.notified.toNat + 0
      have : (s.c.port.take w.cap ++ s.c.port.drop w.cap).count NOTIFIER = s.c.port.count NOTIFIER := by rw [List.take_append_drop]
      rw [List.count_append] at this
      omega
    · cases hs
  | getFail e =>
    simp only [IocpM.step] at hs
    split at hs <;> cases hs
    next hph' =>
    rw [hph'] at hph
    exact h.go (fun _ => rfl) rfl hph (by rw [hph']; exact Nat.le_refl _)
  | decide e =>
    simp only [IocpM.step] at hs
    split at hs
    · rename_i w hph'
      rw [hph'] at hph
      have hev : evL s to (.decide e) .tau = if !w.notified && w.newEvents == 0 && w.timed && e then some .lapse else none := by
        show (if IocpC.gaveUp s (.decide e) then some HandL.lapse else none) = _
        simp only [IocpC.gaveUp, hph']
      rw [hph'] at hp
      have hp : unexcused l + s.c.port.count NOTIFIER + (List.count NOTIFIER [] + w.notified.toNat) + 0 + cnt n posts s.pc ≤ notifiesL l := hp
      simp only [List.count_nil] at hp
      split at hs <;> cases hs
      · next hd =>
        rw [hev]
        cases hg : (!w.notified && w.newEvents == 0 && w.timed && e) with
        | true =>
          refine ⟨h.tags, h.calls, ⟨b, hph.2.buf⟩, ?_⟩
          show unexcused l + s.c.port.count NOTIFIER + 0 + tok true (.fin w.evs) + cnt n posts s.pc ≤ notifiesL l
          have : tok true (.fin w.evs) = 0 := by simp [tok]
          omega
        | false =>
          refine ⟨h.tags, h.calls, ⟨b, hph.2.buf⟩, ?_⟩
          show unexcused l + s.c.port.count NOTIFIER + 0 + tok (excused l) (.fin w.evs) + cnt n posts s.pc ≤ notifiesL l
          have : tok (excused l) (.fin w.evs) ≤ w.notified.toNat := by
            simp only [tok]
            split
            · next hx =>
              cases hn : w.notified with
              | true => decide
              | false =>
                exfalso
                have hne : ¬ w.newEvents > 0 := by
                  intro hd
                  have hx := hx.2
                  rw [hph.2.buf.visible] at hx
                  have := hph.2.some
                  rw [hx] at this
                  simp only [List.length_nil] at this
                  omega
                rcases hd with hd | hd | hd
                · rw [hn] at hd; cases hd
                · exact hne hd
                · have h0 : w.newEvents = 0 := by omega
                  rw [hn, hd.1, hd.2, h0] at hg; cases hg
            · exact Nat.zero_le _
          omega
      · next hd =>
        have hg : (!w.notified && w.newEvents == 0 && w.timed && e) = false := by
          cases hx : (!w.notified && w.newEvents == 0 && w.timed && e) with
          | false => rfl
          | true =>
            simp only [Bool.and_eq_true] at hx
            exact absurd (.inr (.inr ⟨hx.1.2, hx.2⟩)) hd
        rw [hev, hg]
        refine ⟨h.tags, h.calls, ⟨b, hph⟩, ?_⟩
        show unexcused l + s.c.port.count NOTIFIER + w.notified.toNat + 0 + cnt n posts s.pc ≤ notifiesL l
        omega
    · cases hs
  | complete p r =>
    simp only [IocpM.step] at hs
    split at hs
    · rename_i k hpk
      repeat' split at hs
      all_goals cases hs
      have : Tags (setPk s.c p (.socket { k with op := .done r })) := h.tags.setPk p (by have := h.tags p; rw [hpk] at this; exact this)
      refine h.other this h.calls rfl ?_
      show (s.c.port ++ [p]).count NOTIFIER + _ ≤ _
      rw [List.count_append, notNotifier p (by rw [hpk]; nofun)]
      exact Nat.le_refl _
    · cases hs
  | fire p =>
    simp only [IocpM.step] at hs
    split at hs
    · rename_i w hpk
      split at hs <;> cases hs
      have : Tags (setPk s.c p (.waitable { w with registered := false })) := h.tags.setPk p (by have := h.tags p; rw [hpk] at this; exact this)
      exact h.other this h.calls rfl (Nat.le_refl _)
    · cases hs
  | callback p =>
    simp only [IocpM.step] at hs
    split at hs
    · rename_i w hpk
      split at hs <;> cases hs
      have : Tags (setPk s.c p (.waitable { w with status := .idle, registered := false })) := h.tags.setPk p (by have := h.tags p; rw [hpk] at this; exact this)
      exact h.other this h.calls rfl (Nat.le_refl _)
    · cases hs
  | callbackPost p fault =>
    simp only [IocpM.step] at hs
    split at hs <;> cases hs
    rename_i hm
    refine h.other ?_ h.calls rfl ?_
    · dsimp only; split <;> exact h.tags
    · dsimp only
      split
      · show (s.c.port ++ [p]).count NOTIFIER + _ ≤ _
        rw [List.count_append, notNotifier p, Nat.add_zero]
        · exact Nat.le_refl _
        intro hw
        have := (reach_cb hr).2 p (by simp [hm])
        rw [hw] at this; cases this
      · exact Nat.le_refl _

theorem LInv.init (n : Nat) : LInv n IocpM.init [] := by
  have h0 : cnt n posts IocpM.init.pc = 0 := by
    by_cases h0 : cnt n posts IocpM.init.pc = 0
    · exact h0
    · obtain ⟨_, _, h⟩ := cnt_pos.1 (Nat.pos_of_ne_zero h0); cases h
  refine ⟨?_, nofun, ⟨false, trivial⟩, ?_⟩
  · intro p
    by_cases e : p = NOTIFIER
    · subst e; exact ⟨nofun, fun _ => rfl⟩
    · show TagOk p (tag (if p = NOTIFIER then .wakeup else .free))
      rw [if_neg e]; exact ⟨nofun, nofun⟩
  · show 0 + 0 + 0 + 0 + cnt n posts IocpM.init.pc ≤ 0
    rw [h0]; exact Nat.le_refl _

end Polling.IocpM

namespace Polling.IocpC
open IocpM Iocp IocpSpec Spec

/-- What a program sees of a step. -/
def handT : Act × Obs → Option HandT
  | (.tick dt, _) => some (.pass dt)
  | (.wait timeout _, _) => some (.wait (timeout.map Duration.ns))
  | (.act (.notifyCas _), _) => some .notify
  | (_, (some (.waitOk n _), _)) => some (.back n)
  | _ => none

/-- The extensions are not used with the reserved key. -/
def Proper : Act → Prop
  | .act a => IocpM.Proper a
  | _ => True

/-- The same, and whether the OS gave up. -/
def handL (x : Act × Obs) : Option HandL :=
  match handT x with
  | some e => some (.see e)
  | none => if x.2.2 then some .lapse else none

theorem handL_seen (l : List (Act × Obs)) : (l.filterMap handL).filterMap HandL.seen = l.filterMap handT := by
  induction l with
  | nil => rfl
  | cons x l ih =>
    rw [List.filterMap_cons, List.filterMap_cons]
    unfold handL
    cases h : handT x with
    | some e => simp only; rw [List.filterMap_cons]; simp only [HandL.seen]; rw [← ih]; rfl
    | none =>
      simp only
      cases x.2.2 <;> simp [HandL.seen] <;> exact ih

/-- The deadlines, against what was seen since the latest `wait` began. -/
structure Clk (s : S) (l : List HandT) : Prop where
  sp : spent l ≤ s.now
  dl : ∀ d, s.dl = some d → d ≤ windowsMaxNs ∧ ∃ T, timeoutOf l = some T ∧ d + spent l = s.now + T
  rem : ∀ r, s.rem = some r → ∃ d, s.dl = some d ∧ d ≤ s.now + r.ns
  dl2 : ∀ d2, s.dl2 = some d2 → d2 ≤ windowsMaxNs ∧ ∃ d, s.dl = some d ∧ d ≤ d2
  rem2 : ∀ r, s.rem2 = some r → r.ns = 0 → ∃ d, s.dl = some d ∧ d ≤ s.now

theorem since_win {d t : Nat} (h : d ≤ windowsMaxNs) : (saturatingSince d t).ns = d - t := by
  unfold saturatingSince windowsMaxNs durLimit at *
  simp only; omega

theorem Clk.over {s l} (h : Clk s l) (ho : timeoutIsEmpty s = true) : timeOver none l = true := by
  unfold timeoutIsEmpty at ho
  cases hr : s.rem2 with
  | none => rw [hr] at ho; cases ho
  | some r =>
    rw [hr] at ho
    simp only [Bool.and_eq_true, beq_iff_eq, Duration.asSecs, Duration.subsecNanos] at ho
    obtain ⟨d, hd, hle⟩ := h.rem2 r hr (by omega)
    obtain ⟨_, T, hT, he⟩ := h.dl d hd
    unfold timeOver
    rw [hT]
    simp only [Bool.or_eq_true, decide_eq_true_eq]
    left; omega

theorem Clk.ofEq {s s' : S} {l} (h : Clk s l) (e1 : s'.now = s.now) (e2 : s'.dl = s.dl) (e3 : s'.rem = s.rem) (e4 : s'.dl2 = s.dl2)
    (e5 : s'.rem2 = s.rem2) : Clk s' l := by
  obtain ⟨a, b, c, d, e⟩ := h
  exact ⟨by rw [e1]; exact a, by rw [e1, e2]; exact b, by rw [e1, e2, e3]; exact c, by rw [e2, e4]; exact d, by rw [e1, e2, e5]; exact e⟩

theorem Clk.see {s l e} (h : Clk s l) (h1 : timeoutOf (e :: l) = timeoutOf l) (h2 : spent (e :: l) = spent l) : Clk s (e :: l) := by
  obtain ⟨a, b, c, d, e⟩ := h
  exact ⟨by rw [h2]; exact a, by rw [h1, h2]; exact b, c, d, e⟩

theorem Clk.tick {s l} (h : Clk s l) (dt : Nat) : Clk { s with now := s.now + dt } (.pass dt :: l) := by
  have e : spent (.pass dt :: l) = spent l + dt := rfl
  have e' : timeoutOf (.pass dt :: l) = timeoutOf l := rfl
  refine ⟨?_, fun d hd => ?_, fun r hr => ?_, h.dl2, fun r hr h0 => ?_⟩
  · rw [e]; have := h.sp; show _ ≤ s.now + dt; omega
  · obtain ⟨a, T, hT, he⟩ := h.dl d hd
    refine ⟨a, T, by rw [e']; exact hT, ?_⟩
    rw [e]; show _ = s.now + dt + T; omega
  · obtain ⟨d, hd, hle⟩ := h.rem r hr
    exact ⟨d, hd, by show _ ≤ s.now + dt + _; omega⟩
  · obtain ⟨d, hd, hle⟩ := h.rem2 r hr h0
    exact ⟨d, hd, by show _ ≤ s.now + dt; omega⟩

theorem Clk.after {s l} (h : Clk s l) : Clk (after s) l := by
  unfold IocpC.after
  split
  · exact h.ofEq rfl rfl rfl rfl rfl
  · refine ⟨h.sp, h.dl, h.rem, h.dl2, fun r hr h0 => ?_⟩
    dsimp only at hr ⊢
    cases hd2 : s.dl2 with
    | none => rw [hd2] at hr; cases hr
    | some d2 =>
      rw [hd2] at hr; cases hr
      obtain ⟨hm, d, hd, hle⟩ := h.dl2 d2 hd2
      rw [since_win hm] at h0
      exact ⟨d, hd, by omega⟩
  · exact h

theorem add_max {m now d : Nat} {t : Duration} (h : instantCheckedAdd m now t = some d) : now + t.ns = d ∧ d ≤ m := by
  unfold instantCheckedAdd at h
  split at h <;> cases h
  exact ⟨rfl, by assumption⟩

theorem inner_eq {n s a f lapse r} (h : inner n s a f lapse = some r) :
    ∃ i o, IocpM.step n s.i a = some (i, o) ∧ r = (f { s with i }, (some o, lapse)) := by
  unfold inner at h
  rw [Option.map_eq_some_iff] at h
  obtain ⟨⟨i, o⟩, h1, h2⟩ := h
  exact ⟨i, o, h1, h2.symm⟩

/-- What happens in a step. -/
inductive Kind (n : Nat) (s : S) : Act → S → Obs → Prop
  | tick (dt) : Kind n s (.tick dt) { s with now := s.now + dt } (none, false)
  | wait (timeout cap i o) (h : IocpM.step n s.i (.waitBegin timeout.isSome cap) = some (i, o)) :
    Kind n s (.wait timeout cap) { i, now := s.now, dl := timeout.bind (instantCheckedAdd windowsMaxNs s.now), stage := .top, rem := none, dl2 := none, rem2 := none }
      (some o, false)
  | remaining : Kind n s .remaining { s with rem := s.dl.map fun d => saturatingSince d s.now, stage := .left } (none, false)
  | deadline : Kind n s .deadline { s with dl2 := s.rem.bind (instantCheckedAdd windowsMaxNs s.now), stage := .set } (none, false)
  | go (fault i o) (h : IocpM.step n s.i (.wait fault) = some (i, o)) : Kind n s (.act (.wait fault)) (after { s with i }) (some o, false)
  | other (a i o) (h : IocpM.step n s.i a = some (i, o)) (hw : ∀ b cap, a ≠ .waitBegin b cap) (hl : gaveUp s.i a = true → timeoutIsEmpty s = true) :
    Kind n s (.act a) { s with i } (some o, gaveUp s.i a)

theorem step_kind {n s a s' o} (h : step n s a = some (s', o)) : Kind n s a s' o := by
  cases a with
  | tick dt => cases h; exact .tick dt
  | wait timeout cap =>
    simp only [step] at h
    obtain ⟨i, o, h1, h2⟩ := inner_eq h; cases h2; exact .wait timeout cap i o h1
  | remaining =>
    simp only [step] at h
    split at h
    · cases h; exact .remaining
    · cases h
  | deadline =>
    simp only [step] at h
    split at h
    · cases h; exact .deadline
    · cases h
  | act a =>
    cases a
    case waitBegin => cases h
    case wait fault =>
      simp only [step] at h
      split at h
      · cases h
      · obtain ⟨i, o, h1, h2⟩ := inner_eq h; cases h2; exact .go fault i o h1
    case decide e =>
      simp only [step] at h
      split at h
      · next he =>
        obtain ⟨i, o, h1, h2⟩ := inner_eq h; cases h2
        refine .other (.decide e) i o h1 (by intro b cap e; cases e) fun hg => ?_
        rw [← beq_iff_eq.1 he]
        simp only [gaveUp] at hg
        split at hg
        · simp only [Bool.and_eq_true] at hg; exact hg.2
        · cases hg
      · cases h
    all_goals
      simp only [step] at h
      obtain ⟨i, o, h1, h2⟩ := inner_eq h; cases h2
      exact .other _ i o h1 (by intro b cap e; cases e) (by intro e; cases e)

theorem reach_inner {n P s l} (h : Runs (fun s => ∃ now, s = init now) (step n) P s l) : ∃ tr, Reach n Any s.i tr := by
  induction h with
  | init hi => obtain ⟨now, rfl⟩ := hi; exact ⟨[], .init⟩
  | @step s l a s' o _ _ hs ih =>
    obtain ⟨tr, ih⟩ := ih
    cases step_kind hs with
    | tick | remaining | deadline => exact ⟨tr, ih⟩
    | wait timeout cap i o h => exact ⟨_, .step ih trivial h⟩
    | go fault i o h =>
      have : (after { s with i }).i = i := by unfold after; split <;> rfl
      exact ⟨_, by rw [this]; exact .step ih trivial h⟩
    | other a i o h => exact ⟨_, .step ih trivial h⟩

theorem evL_eq {s : IocpM.S} {a o} (hw : ∀ b cap, a ≠ .waitBegin b cap) : handL (.act a, (some o, gaveUp s a)) = evL s none a o := by
  unfold handL handT evL
  cases a <;> first | exact absurd rfl (hw _ _) | (cases o <;> rfl)

theorem handT_act {a o b e} (h : handT (.act a, (o, b)) = some e) : e = .notify ∨ ∃ n, e = .back n := by
  unfold handT at h
  split at h
  · next h1 => cases h1
  · next h1 => cases h1
  · cases h; exact .inl rfl
  · cases h; exact .inr ⟨_, rfl⟩
  · cases h

structure TInv (n : Nat) (s : S) (l : List (Act × Obs)) : Prop where
  pay : LInv n s.i (l.filterMap handL)
  clk : Clk s (l.filterMap handT)
  fair : Fair none (l.filterMap handL)

theorem reach_timed {n P s l} (hP : ∀ a, P a → Proper a) (h : Runs (fun s => ∃ now, s = init now) (step n) P s l) : TInv n s l := by
  induction h with
  | @init s hi =>
    obtain ⟨now, rfl⟩ := hi
    exact ⟨.init n, ⟨Nat.zero_le _, (by intro d h; cases h), (by intro d h; cases h), (by intro d h; cases h), (by intro d h; cases h)⟩, .nil⟩
  | @step s l a s' o hr hpa hs ih =>
    obtain ⟨tr, hri⟩ := reach_inner hr
    have act : ∀ {a i o s'}, IocpM.step n s.i a = some (i, o) → (∀ b cap, a ≠ .waitBegin b cap) → IocpM.Proper a → s'.i = i → Clk s' (l.filterMap handT) →
        (gaveUp s.i a = true → timeoutIsEmpty s = true) →
        LInv n s'.i ((handL (.act a, (some o, gaveUp s.i a))).toList ++ l.filterMap handL) ∧
          Clk s' ((handT (.act a, (some o, gaveUp s.i a))).toList ++ l.filterMap handT) ∧
          Fair none ((handL (.act a, (some o, gaveUp s.i a))).toList ++ l.filterMap handL) := by
      intro a i o s' hp hw hpr hi hclk hl
      have e := evL_eq (s := s.i) (o := o) hw
      have hpay := ih.pay.step hri hpr hp none
      rw [← e, ← hi] at hpay
      refine ⟨hpay, ?_, ?_⟩
      · cases hT : handT (.act a, (some o, gaveUp s.i a)) with
        | none => exact hclk
        | some e =>
          rcases handT_act hT with rfl | ⟨n, rfl⟩
          · exact hclk.see rfl rfl
          · exact hclk.see rfl rfl
      · unfold handL
        cases hT : handT (.act a, (some o, gaveUp s.i a)) with
        | some e => exact ih.fair.see
        | none =>
          dsimp only
          cases hx : gaveUp s.i a with
          | false => exact ih.fair
          | true =>
            refine .cons ih.fair fun _ => ?_
            show timeOver none ((l.filterMap handL).filterMap HandL.seen) = true
            rw [handL_seen]
            exact ih.clk.over (hl hx)
    have goal : LInv n s'.i ((handL (a, o)).toList ++ l.filterMap handL) ∧ Clk s' ((handT (a, o)).toList ++ l.filterMap handT) ∧
        Fair none ((handL (a, o)).toList ++ l.filterMap handL) := by
      have hpa := hP a hpa
      cases step_kind hs with
      | tick dt => exact ⟨⟨ih.pay.tags, ih.pay.calls, ih.pay.phase, ih.pay.pay⟩, ih.clk.tick dt, ih.fair.see⟩
      | remaining =>
        refine ⟨ih.pay, ⟨ih.clk.sp, ih.clk.dl, ?_, ih.clk.dl2, ih.clk.rem2⟩, ih.fair⟩
        intro r hr
        dsimp only at hr ⊢
        cases hd : s.dl with
        | none => rw [hd] at hr; cases hr
        | some d =>
          rw [hd] at hr; cases hr
          refine ⟨d, rfl, ?_⟩
          rw [since_win (ih.clk.dl d hd).1]; omega
      | deadline =>
        refine ⟨ih.pay, ⟨ih.clk.sp, ih.clk.dl, ih.clk.rem, ?_, ih.clk.rem2⟩, ih.fair⟩
        intro d2 h2
        dsimp only at h2 ⊢
        cases hrm : s.rem with
        | none => rw [hrm] at h2; cases h2
        | some r =>
          rw [hrm] at h2
          obtain ⟨e, hm⟩ := add_max h2
          obtain ⟨d, hd, hle⟩ := ih.clk.rem r hrm
          exact ⟨hm, d, hd, by omega⟩
      | wait timeout cap i o hp =>
        refine ⟨ih.pay.step (a := .waitBegin timeout.isSome cap) hri trivial hp (timeout.map Duration.ns), ?_, ih.fair.see⟩
        refine ⟨Nat.zero_le _, ?_, (by intro r h; cases h), (by intro r h; cases h), (by intro r h; cases h)⟩
        intro d hd
        dsimp only at hd ⊢
        cases timeout with
        | none => cases hd
        | some T =>
          obtain ⟨e, hm⟩ := add_max hd
          exact ⟨hm, T.ns, rfl, by rw [← e]; rfl⟩
      | go fault i o hp =>
        have hi : (IocpC.after { s with i }).i = i := by unfold IocpC.after; split <;> rfl
        have hc : Clk (IocpC.after { s with i }) (l.filterMap handT) := Clk.after (ih.clk.ofEq rfl rfl rfl rfl rfl)
        exact act (a := .wait fault) hp (by intro b cap e; cases e) hpa hi hc (by intro e; cases e)
      | other a i o hp hw hl =>
        exact act hp hw hpa rfl (ih.clk.ofEq rfl rfl rfl rfl rfl) hl
    have eL : ((a, o) :: l).filterMap handL = (handL (a, o)).toList ++ l.filterMap handL := by
      rw [List.filterMap_cons]; cases handL (a, o) <;> rfl
    have eT : ((a, o) :: l).filterMap handT = (handT (a, o)).toList ++ l.filterMap handT := by
      rw [List.filterMap_cons]; cases handT (a, o) <;> rfl
    exact ⟨by rw [eL]; exact goal.1, by rw [eT]; exact goal.2.1, by rw [eL]; exact goal.2.2⟩

end Polling.IocpC
