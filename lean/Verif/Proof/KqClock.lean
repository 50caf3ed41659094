import Verif.Model.KqClock
import Verif.Proof.HandLapse
import Verif.Proof.HandKq
import Verif.Proof.EpollTimer

/-! Empty-handed waits are paid for by notifications, or their time is over: kqueue. -/

namespace Polling.KqM
open Kqueue KqSpec Spec

/-! ### Payment, by the machine without a clock -/

/-- Who pays. -/
def LPay (c : Cfg) (s : S) (l : List HandL) : Prop :=
  unexcused l + held (excused l) (cnt c.threads tok s.pc) + due c s.k (cnt c.threads clr s.pc) + cnt c.threads pend s.pc ≤ notifiesL l

theorem LPay.move {c s s' t l p0} (ht : t < c.threads) (h : LPay c s l) (h0 : s.pc t = p0) (p1 : Pc) (hpc : s'.pc = upd s.pc t p1)
    (hpay : held (excused l) (tok p1).toNat + due c s'.k (cnt c.threads clr s'.pc) + (pend p1).toNat ≤
      held (excused l) (tok p0).toNat + due c s.k (cnt c.threads clr s.pc) + (pend p0).toNat) : LPay c s' l := by
  have u1 := cnt_upd' tok s.pc ht p1
  have u2 := cnt_upd' pend s.pc ht p1
  rw [h0, ← hpc] at u1 u2
  have hp := h
  unfold LPay at hp ⊢
  cases hl : excused l with
  | true => rw [hl] at hp hpay; simp only [held, if_true] at hp hpay ⊢; omega
  | false => rw [hl] at hp hpay; simp only [held, Bool.false_eq_true, if_false] at hp hpay ⊢; omega

/-- The kernel is left alone. -/
theorem LPay.quiet {c s s' t l p0} (ht : t < c.threads) (h : LPay c s l) (h0 : s.pc t = p0) (p1 : Pc) (hpc : s'.pc = upd s.pc t p1)
    (hk : s'.k = s.k) (hc : clr p1 = clr p0)
    (htok : (tok p1).toNat ≤ (tok p0).toNat) (hpend : (pend p1).toNat ≤ (pend p0).toNat) : LPay c s' l := by
  have u3 := cnt_upd' clr s.pc ht p1
  rw [h0, ← hpc, hc] at u3
  have e : cnt c.threads clr s'.pc = cnt c.threads clr s.pc := by omega
  refine h.move ht h0 p1 hpc ?_
  rw [hk, e]
  have := held_le (excused l) htok
  omega

/-- `kevent` gives up. -/
def lapsing (c : Cfg) (s : S) (t : Tid) (a : Act) : Bool :=
  match a with
  | .kevent => KqC.gaveUp c s t
  | _ => false

/-- What is seen of a step; `to`: the timeout, if a `wait` begins. -/
def evL (c : Cfg) (s : S) (t : Tid) (to : Option Nat) (a : Act) (o : KObs) : Option HandL :=
  match a, o with
  | .notifyCas, _ => some (.see .notify)
  | .wait _ _, .waitBegin _ => some (.see (.wait to))
  | _, .waitOk _ n _ => some (.see (.back n))
  | a, _ => if lapsing c s t a then some .lapse else none

theorem LPay.next {c P s s' t a o tr l} (hok : c.Ok) (hkc : C06.KeepsClear c) (hr : Reach c P s tr) (hkeys : Keys c s) (ha : Proper (t, a))
    (ht : t < c.threads) (hn : Next c s t a s' o) (h : LPay c s l) (to : Option Nat) : LPay c s' ((evL c s t to a o).toList ++ l) := by
  have hp := h
  have e1 : unexcused (.see .notify :: l) = unexcused l := rfl
  have e2 : notifiesL (.see .notify :: l) = notifiesL l + 1 := rfl
  have e0 : excused (.see .notify :: l) = excused l := rfl
  have hpt := reach_pcOk hr t
  -- a `notify` call begins
  have began : ∀ p, s.pc t = .out → (p = .nWrite ∨ p = .submit .notify [userChange true] []) →
      LPay c { s with notified := true, pc := upd s.pc t p } (.see .notify :: l) := by
    intro p hp0 hpp
    have u1 := cnt_upd' tok s.pc ht p
    have u2 := cnt_upd' pend s.pc ht p
    have u3 := cnt_upd' clr s.pc ht p
    rw [hp0] at u1 u2 u3
    have x1 : tok p = false := by rcases hpp with rfl | rfl <;> rfl
    have x3 : clr p = false := by rcases hpp with rfl | rfl <;> rfl
    have x2 : pend p = true := by rcases hpp with rfl | rfl <;> rfl
    have x4 : timedOf p = none := by rcases hpp with rfl | rfl <;> rfl
    rw [x1] at u1; rw [x2] at u2; rw [x3] at u3
    have y1 : cnt c.threads tok (upd s.pc t p) = cnt c.threads tok s.pc := u1
    have y2 : cnt c.threads pend (upd s.pc t p) = cnt c.threads pend s.pc + 1 := u2
    have y3 : cnt c.threads clr (upd s.pc t p) = cnt c.threads clr s.pc := u3
    show LPay c _ _
    unfold LPay at hp ⊢
    simp only [e0, e1, e2, y1, y2, y3]; omega
  cases hn with
  | reject => exact h
  | panic0 => exact h
  | @begin call hp0 => exact h.quiet ht hp0 _ rfl rfl (by cases call <;> rfl) (by cases call <;> exact Nat.le_refl _) (by cases call <;> exact Nat.le_refl _)
  | dup hp0 => exact h.quiet ht hp0 _ rfl rfl rfl (Nat.le_refl _) (Nat.le_refl _)
  | inserted hp0 => exact h.quiet ht hp0 _ rfl rfl rfl (Nat.le_refl _) (Nat.le_refl _)
  | missing hp0 =>
    rcases hp0 with hp0 | hp0 <;>
      exact h.quiet ht hp0 _ rfl rfl rfl (Nat.le_refl _) (Nat.le_refl _)
  | panic hp0 => exact h.quiet ht hp0 _ rfl rfl rfl (Nat.le_refl _) (Nat.le_refl _)
  | has hp0 => exact h.quiet ht hp0 _ rfl rfl rfl (Nat.le_refl _) (Nat.le_refl _)
  | removed hp0 => exact h.quiet ht hp0 _ rfl rfl rfl (Nat.le_refl _) (Nat.le_refl _)
  | ended hp0 => exact h.quiet ht hp0 _ rfl rfl rfl (Nat.le_refl _) (Nat.le_refl _)
  | wMissing hp0 => exact h.quiet ht hp0 _ rfl rfl rfl (Nat.zero_le _) (Nat.le_refl _)
  | wHas hp0 => exact h.quiet ht hp0 _ rfl rfl rfl (Nat.le_refl _) (Nat.le_refl _)
  | finCall hf =>
    obtain ⟨_, _, hp0⟩ := hf.pc
    rcases hf.act with rfl | ⟨_, rfl⟩ <;>
      exact h.quiet ht hp0 _ rfl rfl rfl (Nat.zero_le _) (Nat.zero_le _)
  | finDelete hf =>
    obtain ⟨_, _, hp0⟩ := hf.pc
    rcases hf.act with rfl | ⟨_, rfl⟩ <;>
      exact h.quiet ht hp0 _ rfl rfl rfl (Nat.zero_le _) (Nat.zero_le _)
  | finNotify hf =>
    obtain ⟨_, _, hp0⟩ := hf.pc
    rcases hf.act with rfl | ⟨_, rfl⟩ <;>
      exact h.quiet ht hp0 _ rfl rfl rfl (Nat.zero_le _) (Nat.zero_le _)
  | finRearm hf =>
    obtain ⟨_, _, hp0⟩ := hf.pc
    rcases hf.act with rfl | ⟨_, rfl⟩ <;>
      exact h.quiet ht hp0 _ rfl rfl rfl (Nat.le_refl _) (Nat.zero_le _)
  | rearmRetry hf =>
    obtain ⟨_, _, hp0⟩ := hf.pc
    rcases hf.act with rfl | ⟨_, rfl⟩ <;>
      exact h.quiet ht hp0 _ rfl rfl rfl (Nat.zero_le _) (Nat.zero_le _)
  | rearmErr hf =>
    obtain ⟨_, _, hp0⟩ := hf.pc
    rcases hf.act with rfl | ⟨_, rfl⟩ <;>
      exact h.quiet ht hp0 _ rfl rfl rfl (Nat.zero_le _) (Nat.zero_le _)
  | kevRetry => exact h
  | kevErr hp0 => exact h.quiet ht hp0 _ rfl rfl rfl (Nat.le_refl _) (Nat.le_refl _)
  | casSeen =>
    show LPay c s (.see .notify :: l)
    unfold LPay at hp ⊢
    rw [e0, e1, e2]; omega
  | casUser hp0 hn0 hu => exact began _ hp0 (.inr rfl)
  | casPair hp0 hn0 hu => exact began _ hp0 (.inl rfl)
  | writeFail hp0 => exact h.quiet ht hp0 _ rfl rfl rfl (Nat.le_refl _) (Nat.zero_le _)
  | write hp0 =>
    refine LPay.move (l := l) ht h hp0 .out rfl ?_
    exact (show ∀ x y z : Nat, x ≤ 1 → y + x + 0 ≤ y + z + 1 from by omega) _ _ _ (due_le _ _ _)
  | waitBusy => exact h
  | @waitBegin timed cap hp0 hl hc =>
    have nobody : ∀ u, inWait (s.pc u) = false := by
      intro u
      cases hx : inWait (s.pc u) with
      | false => rfl
      | true => have := (reach_lib hr u).2 hx; rw [hl] at this; cases this
    have z : ∀ u, tok (upd s.pc t (.wKev timed cap) u) = false := by
      intro u
      by_cases e : u = t
      · subst e; rw [upd_self]; rfl
      · rw [upd_other _ e]
        cases hx : tok (s.pc u) with
        | false => rfl
        | true => have := nobody u; rw [tok_inWait hx] at this; cases this
    have u2 := cnt_upd' pend s.pc ht (.wKev timed cap)
    have u3 := cnt_upd' clr s.pc ht (.wKev timed cap)
    rw [hp0] at u2 u3
    have y2 : cnt c.threads pend (upd s.pc t (.wKev timed cap)) = cnt c.threads pend s.pc := u2
    have y3 : cnt c.threads clr (upd s.pc t (.wKev timed cap)) = cnt c.threads clr s.pc := u3
    show unexcused l + held false (cnt c.threads tok (upd s.pc t (.wKev timed cap))) + due c s.k (cnt c.threads clr (upd s.pc t (.wKev timed cap))) +
      cnt c.threads pend (upd s.pc t (.wKev timed cap)) ≤ notifiesL l
    rw [cnt_zero' z, y2, y3]
    have : held false 0 = 0 := rfl
    unfold LPay at hp
    omega
  | @change fault w ev todo done errno k hp0 hf hreg =>
    have hreg := register_reg hreg
    rw [hp0] at hpt
    have hand : evL c s t to (.change fault) (changeObs t ev errno) = none := by
      unfold changeObs; split
      · rfl
      · split <;> rfl
    rw [hand]
    have u3 := cnt_upd' clr s.pc ht (.submit w todo (done ++ [receipt ev errno]))
    rw [hp0] at u3
    have y3 : cnt c.threads clr (upd s.pc t (.submit w todo (done ++ [receipt ev errno]))) = cnt c.threads clr s.pc := by
      have : clr (.submit w todo (done ++ [receipt ev errno])) = false := rfl
      have : clr (.submit w (ev :: todo) done) = false := rfl
      simp_all
    refine LPay.move (l := l) ht h hp0 (.submit w todo (done ++ [receipt ev errno])) rfl ?_
    · have t1 : tok (.submit w todo (done ++ [receipt ev errno])) = tok (.submit w (ev :: todo) done) := by cases w <;> rfl
      simp only [y3, t1]
      cases w with
      | call call =>
        have hd : due c k (cnt c.threads clr s.pc) = due c s.k (cnt c.threads clr s.pc) := by
          unfold due
          cases hu : c.user with
          | true =>
            have := (reg_other hreg (call_filter_ne hpt (userInternal hu))).2
            simp only [if_true, this]
          | false =>
            have := (reg_other hreg (call_filter_ne hpt (readInternal hu))).2
            simp only [Bool.false_eq_true, if_false, this, (reg_env hreg).2]
        rw [hd]
        have : pend (.submit (.call call) todo (done ++ [receipt ev errno])) = false := rfl
        rw [this]
        simp only [Bool.toNat_false]
        omega
      | notify =>
        obtain ⟨rfl, rfl, rfl⟩ := notify_change hpt
        have a1 := due_le c k (cnt c.threads clr s.pc)
        have a4 : pend (.submit .notify [] ([] ++ [receipt (userChange true) errno])) = false := rfl
        have a5 : pend (.submit .notify [userChange true] []) = true := rfl
        rw [a4, a5]
        simp only [Bool.toNat_false, Bool.toNat_true]
        omega
      | rearm timed cap evs =>
        have hu : c.user = false := hpt.1.1
        have hz : cnt c.threads clr s.pc = 0 := no_other hr (t := t) (by rw [hp0]; rfl) (by rw [hp0]; rfl)
        have hd : due c k 0 ≤ due c s.k 0 := by
          unfold due
          simp only [hu, Bool.false_eq_true, if_false, (reg_env hreg).2]
          rcases rearm_change hpt with ⟨h1, h2, h3, _⟩ | ⟨h1, h2, _⟩
          · cases hfl : fault with
            | some e =>
              cases hreg with
              | fault => exact Nat.le_refl _
              | _ => simp_all
            | none =>
              have hq := (knote_after hreg (by rw [h2]; rfl) hfl).2.2
              rw [h1] at hq
              have hfr : fires c s.k ev = true ↔ s.k.chan > 0 := by
                unfold fires; rw [h1]; simp only [ready, hu]
                by_cases hch : s.k.chan > 0 <;> simp [hch]
              rw [hfr] at hq
              by_cases ho : Filter.read c.notifFd ∈ k.queue ∨ s.k.chan > 0 ∧ True
              · have : Filter.read c.notifFd ∈ s.k.queue ∨ s.k.chan > 0 ∧ True := by
                  rcases ho with ho | ho
                  · rcases hq.1 ho with hx | hx
                    · exact .inl hx
                    · exact .inr ⟨hx, trivial⟩
                  · exact .inr ho
                rw [if_pos ho, if_pos this]; exact Nat.le_refl _
              · rw [if_neg ho]; exact Nat.zero_le _
          · have := (reg_other hreg (f := .read c.notifFd) (by rw [h1]; simp)).2
            simp only [this]; exact Nat.le_refl _
        rw [hz]
        have : pend (.submit (.rearm timed cap evs) todo (done ++ [receipt ev errno])) = false := rfl
        rw [this]
        simp only [Bool.toNat_false]
        omega
  | @kevent timed cap evs k hp0 hh hc =>
    obtain ⟨_, _, _, _, _, hb⟩ := harvest_batch (reach_ki hr).nodup hh
    generalize hp1 : (if c.user then Pc.wFin evs else .wClear timed cap evs) = p1
    have htok : tok p1 = (visible evs).isEmpty := by subst hp1; cases c.user <;> rfl
    have hpnd : pend p1 = false := by subst hp1; cases c.user <;> rfl
    have hlap : lapsing c s t .kevent = evs.isEmpty := by simp only [lapsing, KqC.gaveUp, hp0, hh]
    have hev : evL c s t to .kevent (.deliver t (evs.filter fun e => !c.internal e.filter)) = if evs.isEmpty then some .lapse else none := by
      show (if lapsing c s t .kevent then some HandL.lapse else none) = _
      rw [hlap]
    rw [hev]
    have key : ∀ x, (x = true ∨ evs ≠ []) → held x (visible evs).isEmpty.toNat + due c k (cnt c.threads clr (upd s.pc t p1)) ≤ due c s.k (cnt c.threads clr s.pc) := by
      intro x hx0
      have hdue : due c k (cnt c.threads clr (upd s.pc t p1)) + (if x = false ∧ visible evs = [] then 1 else 0) ≤ due c s.k (cnt c.threads clr s.pc) := by
        have hpos : c.user = false → cnt c.threads clr (upd s.pc t p1) > 0 := by
          intro hu
          refine cnt_pos.2 ⟨t, ht, ?_⟩
          rw [upd_self]; subst hp1; rw [hu]; rfl
        by_cases hx : x = false ∧ visible evs = []
        · rw [if_pos hx]
          have hne : evs ≠ [] := by
            rcases hx0 with hc | hc
            · rw [hx.1] at hc; cases hc
            · exact hc
          obtain ⟨f, hf, hin, hout⟩ := took_own hok hkc hr hkeys hh hne hx.2
          unfold due
          cases hu : c.user with
          | true =>
            rw [hu] at hf; simp only [if_true] at hf; subst hf
            simp only [if_true]
            rw [if_neg hout, if_pos hin]; exact Nat.le_refl _
          | false =>
            rw [hu] at hf; simp only [Bool.false_eq_true, if_false] at hf; subst hf
            simp only [Bool.false_eq_true, if_false]
            have := hpos hu
            rw [if_neg (by rintro (h1 | h1); exact hout h1; omega), if_pos (.inl hin)]; exact Nat.le_refl _
        · rw [if_neg hx]
          unfold due
          cases hu : c.user with
          | true =>
            simp only [if_true]
            by_cases h1 : Filter.user 0 ∈ k.queue
            · rw [if_pos h1, if_pos (hb.queue _ h1).1]; exact Nat.le_refl _
            · rw [if_neg h1]; exact Nat.zero_le _
          | false =>
            simp only [Bool.false_eq_true, if_false]
            have := hpos hu
            by_cases h1 : Filter.read c.notifFd ∈ k.queue
            · rw [if_pos (.inl h1), if_pos (.inl (hb.queue _ h1).1)]; exact Nat.le_refl _
            · rw [if_neg (by rintro (h2 | h2); exact h1 h2; omega)]; exact Nat.zero_le _
      have hh' : held x (visible evs).isEmpty.toNat ≤ (if x = false ∧ visible evs = [] then 1 else 0) := by
        cases x with
        | true => exact Nat.zero_le _
        | false =>
          simp only [held, Bool.false_eq_true, if_false]
          cases hv : visible evs with
          | nil => simp
          | cons => simp
      omega
    cases hem : evs.isEmpty with
    | true =>
      have := key true (.inl rfl)
      have m : LPay c { s with k, pc := upd s.pc t p1 } (.lapse :: l) := by
        have u1 := cnt_upd' pend s.pc ht p1
        rw [hp0, hpnd] at u1
        have a5 : pend (.wKev timed cap) = false := rfl
        rw [a5] at u1
        unfold LPay at hp ⊢
        simp only [excused, held, if_true, unexcused, notifiesL] at this ⊢
        simp only [Bool.toNat_false] at u1
        omega
      exact m
    | false =>
      refine LPay.move (l := l) ht h hp0 p1 rfl ?_
      have := key (excused l) (.inr (by intro e; rw [e] at hem; cases hem))
      have a3 : tok (.wKev timed cap) = false := rfl
      have a5 : pend (.wKev timed cap) = false := rfl
      simp only [htok, hpnd, a3, a5, Bool.toNat_false]
      omega
  | @read timed cap evs hp0 hc =>
    have hpos : cnt c.threads clr s.pc > 0 := cnt_pos.2 ⟨t, ht, by rw [hp0]; rfl⟩
    have : due c { s.k with chan := s.k.chan - 64 } (cnt c.threads clr s.pc) = due c s.k (cnt c.threads clr s.pc) := by
      unfold due
      have n1 : ∀ m, (m > 0 ∧ cnt c.threads clr s.pc = 0) ↔ False := by intro m; constructor; intro h; omega; exact False.elim
      simp only [n1]
    show unexcused l + held (excused l) (cnt c.threads tok s.pc) + due c { s.k with chan := s.k.chan - 64 } (cnt c.threads clr s.pc) + cnt c.threads pend s.pc ≤ notifiesL l
    rw [this]; exact hp
  | @readEnd timed cap evs fail hp0 hc =>
    have hch : s.k.chan = 0 := by
      rcases hc with hc | hc
      · exact hc
      · have : fail = false := ha
        rw [hc] at this; cases this
    refine LPay.move (l := l) ht h hp0 (.wHas timed cap evs) rfl ?_
    have a1 : tok (.wHas timed cap evs) = tok (.wClear timed cap evs) := rfl
    have a2 : pend (.wHas timed cap evs) = pend (.wClear timed cap evs) := rfl
    rw [a1, a2]
    have : due c s.k (cnt c.threads clr (upd s.pc t (.wHas timed cap evs))) ≤ due c s.k (cnt c.threads clr s.pc) := by
      have n1 : ∀ m : Nat, (s.k.chan > 0 ∧ m = 0) ↔ False := by intro m; constructor; intro h; omega; exact False.elim
      unfold due
      simp only [n1]
      exact Nat.le_refl _
    simp only
    omega
  | @finish evs hp0 =>
    have u1 := cnt_upd' tok s.pc ht .out
    have u2 := cnt_upd' pend s.pc ht .out
    have u3 := cnt_upd' clr s.pc ht .out
    rw [hp0] at u1 u2 u3
    have y1 : cnt c.threads tok (upd s.pc t .out) + (visible evs).isEmpty.toNat = cnt c.threads tok s.pc := u1
    have y2 : cnt c.threads pend (upd s.pc t .out) = cnt c.threads pend s.pc := u2
    have y3 : cnt c.threads clr (upd s.pc t .out) = cnt c.threads clr s.pc := u3
    have e3 : notifiesL (.see (.back (visible evs).length) :: l) = notifiesL l := rfl
    show unexcused (.see (.back (visible evs).length) :: l) + held (excused l) (cnt c.threads tok (upd s.pc t .out)) +
      due c s.k (cnt c.threads clr (upd s.pc t .out)) + cnt c.threads pend (upd s.pc t .out) ≤ notifiesL (.see (.back (visible evs).length) :: l)
    rw [y2, y3, e3]
    unfold LPay at hp
    cases hv : visible evs with
    | nil =>
      rw [hv] at y1
      simp only [List.isEmpty_nil, Bool.toNat_true] at y1
      simp only [List.length_nil, unexcused]
      cases hl : excused l with
      | true => rw [hl] at hp; simp only [held, if_true] at hp ⊢; omega
      | false => rw [hl] at hp; simp only [held, Bool.false_eq_true, if_false] at hp ⊢; omega
    | cons x xs =>
      simp only [List.length_cons, unexcused]
      have := held_le (excused l) (Nat.le.intro y1)
      omega
  | @raise f v hi =>
    have hd : due c (activate { s.k with cond := fun x => if x = f then some v else s.k.cond x } f) (cnt c.threads clr s.pc) =
        due c s.k (cnt c.threads clr s.pc) := by
      unfold due
      simp only [activate_mem, activate_chan]
      cases hu : c.user with
      | true =>
        have : Filter.user 0 ≠ f := by rintro rfl; rw [userInternal hu] at hi; cases hi
        simp [this]
      | false =>
        have : Filter.read c.notifFd ≠ f := by rintro rfl; rw [readInternal hu] at hi; cases hi
        simp [this]
    show unexcused l + held (excused l) (cnt c.threads tok s.pc) +
      due c (activate { s.k with cond := fun x => if x = f then some v else s.k.cond x } f) (cnt c.threads clr s.pc) + cnt c.threads pend s.pc ≤ notifiesL l
    rw [hd]; exact hp
  | fall => exact h

theorem LPay.init (c : Cfg) (cond : Filter → Option Bool) : LPay c (KqM.init c cond) [] := by
  have hpc : ∀ t, (KqM.init c cond).pc t = .out := by intro t; unfold KqM.init; split <;> rfl
  unfold LPay
  rw [cnt_zero' fun t => by rw [hpc]; rfl, cnt_zero' fun t => by rw [hpc]; rfl, cnt_zero' fun t => by rw [hpc]; rfl]
  have : due c (KqM.init c cond).k 0 = 0 := by
    unfold due KqM.init
    cases hu : c.user with
    | true => simp [register, userChange, setKnote, fires]
    | false => simp [fdChanges, List.foldl, register, changeFlags, Event.onlyReadable, Event.new, modeToFlags, setKnote, fires, ready, hu]
  rw [this]; exact Nat.le_refl _

end Polling.KqM

namespace Polling.KqC
open KqM Kqueue KqSpec Spec

/-- What a program sees of a step. -/
def handT : Act × Obs → Option HandT
  | (.tick dt, _) => some (.pass dt)
  | (.wait _ timeout _, (some (.waitBegin _), _)) => some (.wait (timeout.map Duration.ns))
  | (.act _ .notifyCas, _) => some .notify
  | (_, (some (.waitOk _ n _), _)) => some (.back n)
  | _ => none

/-- The extension is not used with the reserved key, and reading the poller's own socket does not fail while there is something
to read. -/
def Proper : Act → Prop
  | .act t a => KqM.Proper (t, a)
  | _ => True

/-- The same, and whether the OS gave up. -/
def handL (x : Act × Obs) : Option HandL :=
  match handT x with
  | some e => some (.see e)
  | none => if x.2.2 then some .lapse else none

theorem handL_seen (l : List (Act × Obs)) : (l.filterMap handL).filterMap HandL.seen = l.filterMap handT := by
  induction l with
  | nil => rfl
  | cons x l ih =>
    rw [List.filterMap_cons, List.filterMap_cons]
    unfold handL
    cases h : handT x with
    | some e => simp only; rw [List.filterMap_cons]; simp only [HandL.seen]; rw [← ih]; rfl
    | none =>
      simp only
      cases x.2.2 <;> simp [HandL.seen] <;> exact ih

/-- The deadlines, against what was seen since the latest `wait` began. -/
structure Clk (s : S) (l : List HandT) : Prop where
  sp : spent l ≤ s.now
  dl : ∀ d, s.dl = some d → d ≤ unixMaxNs ∧ ∃ T, timeoutOf l = some T ∧ d + spent l = s.now + T
  rem : ∀ r, s.rem = some r → ∃ d, s.dl = some d ∧ d ≤ s.since + r.ns

theorem Clk.over {s l} (h : Clk s l) (ho : overdue s = true) : timeOver none l = true := by
  unfold overdue at ho
  cases hr : s.rem with
  | none => rw [hr] at ho; cases ho
  | some r =>
    rw [hr] at ho
    simp only [decide_eq_true_eq] at ho
    obtain ⟨d, hd, hle⟩ := h.rem r hr
    obtain ⟨_, T, hT, he⟩ := h.dl d hd
    unfold timeOver
    rw [hT]
    simp only [Bool.or_eq_true, decide_eq_true_eq]
    left; omega

theorem Clk.ofEq {s s' : S} {l} (h : Clk s l) (e1 : s'.now = s.now) (e2 : s'.dl = s.dl) (e3 : s'.rem = s.rem) (e6 : s'.since = s.since) : Clk s' l := by
  obtain ⟨a, b, c⟩ := h
  exact ⟨by rw [e1]; exact a, by rw [e1, e2]; exact b, by rw [e2, e3, e6]; exact c⟩

theorem Clk.see {s l e} (h : Clk s l) (h1 : timeoutOf (e :: l) = timeoutOf l) (h2 : spent (e :: l) = spent l) : Clk s (e :: l) := by
  obtain ⟨a, b, c⟩ := h
  exact ⟨by rw [h2]; exact a, by rw [h1, h2]; exact b, c⟩

theorem Clk.tick {s l} (h : Clk s l) (dt : Nat) : Clk { s with now := s.now + dt } (.pass dt :: l) := by
  have e : spent (.pass dt :: l) = spent l + dt := rfl
  have e' : timeoutOf (.pass dt :: l) = timeoutOf l := rfl
  refine ⟨?_, fun d hd => ?_, h.rem⟩
  · rw [e]; have := h.sp; show _ ≤ s.now + dt; omega
  · obtain ⟨a, T, hT, he⟩ := h.dl d hd
    refine ⟨a, T, by rw [e']; exact hT, ?_⟩
    rw [e]; show _ = s.now + dt + T; omega

theorem inner_eq {c s t a f lapse r} (h : inner c s t a f lapse = some r) :
    ∃ k o, KqM.step c s.k t a = some (k, o) ∧ r = (f { s with k }, (some o, lapse)) := by
  unfold inner at h
  rw [Option.map_eq_some_iff] at h
  obtain ⟨⟨k, o⟩, h1, h2⟩ := h
  exact ⟨k, o, h1, h2.symm⟩

/-- What happens in a step. -/
inductive Kind (c : Cfg) (s : S) : Act → S → Obs → Prop
  | tick (dt) : Kind c s (.tick dt) { s with now := s.now + dt } (none, false)
  | wait (t timeout cap k u) (h : KqM.step c s.k t (.wait timeout.isSome cap) = some (k, .waitBegin u)) :
    Kind c s (.wait t timeout cap) { k, now := s.now, fresh := false, dl := timeout.bind (instantCheckedAdd unixMaxNs s.now), rem := none, since := s.now }
      (some (.waitBegin u), false)
  | busy (t timeout cap k o) (h : KqM.step c s.k t (.wait timeout.isSome cap) = some (k, o)) (ho : ∀ u, o ≠ .waitBegin u) :
    Kind c s (.wait t timeout cap) { s with k } (some o, false)
  | remaining : Kind c s .remaining { s with rem := s.dl.map fun d => saturatingSince d s.now, since := s.now, fresh := true } (none, false)
  | other (t a k o fr) (h : KqM.step c s.k t a = some (k, o)) (hw : ∀ b cap, a ≠ .wait b cap) (hl : lapsing c s.k t a = true → overdue s = true) :
    Kind c s (.act t a) { s with k, fresh := fr } (some o, lapsing c s.k t a)

theorem step_kind {c s a s' o} (h : step c s a = some (s', o)) : Kind c s a s' o := by
  cases a with
  | tick dt => cases h; exact .tick dt
  | wait t timeout cap =>
    simp only [step] at h
    split at h
    · cases h
    · next k u hk => cases h; exact .wait t timeout cap k u hk
    · next k o hne hk => cases h; exact .busy t timeout cap k o hk (fun u e => hne u e)
  | remaining =>
    simp only [step] at h
    split at h
    · cases h
    · cases h; exact .remaining
  | act t a =>
    cases a
    case wait => cases h
    case kevent =>
      simp only [step] at h
      split at h
      · cases h
      · next hg =>
        obtain ⟨k, o, h1, h2⟩ := inner_eq h; cases h2
        refine .other t .kevent k o s.fresh h1 (by intro b cap e; cases e) fun e => ?_
        have e : gaveUp c s.k t = true := e
        rw [e] at hg
        simp only [Bool.true_and, Bool.or_eq_true, not_or, Bool.not_eq_true', Bool.not_eq_false'] at hg
        simpa using hg.2
    all_goals
      simp only [step] at h
      obtain ⟨k, o, h1, h2⟩ := inner_eq h; cases h2
      exact .other t _ k o _ h1 (by intro b cap e; cases e) (by intro e; cases e)

theorem proper_wait (t : Tid) (b : Bool) (cap : Nat) : KqM.Proper (t, .wait b cap) := trivial

theorem runs_inner {c P s l} (hP : ∀ a, P a → Proper a) (h : Runs (fun s => ∃ cond now, s = init c cond now) (step c) P s l) :
    ∃ l', Runs (fun s => ∃ cond, s = KqM.init c cond) (fun s (a : Tid × KqM.Act) => KqM.step c s a.1 a.2) KqM.Proper s.k l' := by
  induction h with
  | init hi => obtain ⟨cond, now, rfl⟩ := hi; exact ⟨[], .init ⟨cond, rfl⟩⟩
  | @step s l a s' o _ hp hs ih =>
    obtain ⟨l', ih⟩ := ih
    have hp := hP a hp
    cases step_kind hs with
    | tick | remaining => exact ⟨l', ih⟩
    | wait t timeout cap k u h => exact ⟨_, .step (a := (t, .wait timeout.isSome cap)) ih (proper_wait _ _ _) h⟩
    | busy t timeout cap k o h _ => exact ⟨_, .step (a := (t, .wait timeout.isSome cap)) ih (proper_wait _ _ _) h⟩
    | other t a k o fr h => exact ⟨_, .step (a := (t, a)) ih hp h⟩

theorem evL_eq {c : Cfg} {s s' : KqM.S} {t a o} (hn : KqM.Next c s t a s' o) (hw : ∀ b cap, a ≠ .wait b cap) :
    handL (.act t a, (some o, lapsing c s t a)) = evL c s t none a o := by
  cases hn
  case waitBegin timed cap _ _ _ => exact absurd rfl (hw timed cap)
  case waitBusy timed cap _ _ => exact absurd rfl (hw timed cap)
  case change => unfold changeObs; split <;> first | rfl | (split <;> rfl)
  case finCall hf => rcases hf.act with rfl | ⟨_, rfl⟩ <;> rfl
  case finDelete hf => rcases hf.act with rfl | ⟨_, rfl⟩ <;> rfl
  case finNotify hf => rcases hf.act with rfl | ⟨_, rfl⟩ <;> rfl
  case finRearm hf => rcases hf.act with rfl | ⟨_, rfl⟩ <;> rfl
  case rearmRetry hf => rcases hf.act with rfl | ⟨_, rfl⟩ <;> rfl
  case rearmErr hf => rcases hf.act with rfl | ⟨_, rfl⟩ <;> rfl
  all_goals rfl

theorem handT_act {t a o b e} (h : handT (.act t a, (o, b)) = some e) : e = .notify ∨ ∃ n, e = .back n := by
  unfold handT at h
  split at h
  · next h1 => cases h1
  · next h1 => cases h1
  · cases h; exact .inl rfl
  · cases h; exact .inr ⟨_, rfl⟩
  · cases h

structure TInv (c : Cfg) (s : S) (l : List (Act × Obs)) : Prop where
  pay : LPay c s.k (l.filterMap handL)
  clk : Clk s (l.filterMap handT)
  fair : Fair none (l.filterMap handL)

theorem reach_timed {c : Cfg} (hok : c.Ok) (hkc : C06.KeepsClear c) {P s l} (hP : ∀ a, P a → Proper a)
    (h : Runs (fun s => ∃ cond now, s = init c cond now) (step c) P s l) : TInv c s l := by
  induction h with
  | @init s hi =>
    obtain ⟨cond, now, rfl⟩ := hi
    exact ⟨.init c cond, ⟨Nat.zero_le _, (by intro d h; cases h), (by intro d h; cases h)⟩, .nil⟩
  | @step s l a s' o hr hpa hs ih =>
    obtain ⟨l', hri⟩ := runs_inner hP hr
    have hkeys := reach_keys (fun _ h => h) hri
    have hreach := runs_reach hri
    have goal : LPay c s'.k ((handL (a, o)).toList ++ l.filterMap handL) ∧ Clk s' ((handT (a, o)).toList ++ l.filterMap handT) ∧
        Fair none ((handL (a, o)).toList ++ l.filterMap handL) := by
      have hpa := hP a hpa
      cases step_kind hs with
      | tick dt => exact ⟨ih.pay, ih.clk.tick dt, ih.fair.see⟩
      | remaining =>
        refine ⟨ih.pay, ⟨ih.clk.sp, ih.clk.dl, ?_⟩, ih.fair⟩
        intro r hr
        dsimp only at hr ⊢
        cases hd : s.dl with
        | none => rw [hd] at hr; cases hr
        | some d =>
          rw [hd] at hr; cases hr
          refine ⟨d, rfl, ?_⟩
          rw [EpollM.since_ns (ih.clk.dl d hd).1]; omega
      | wait t timeout cap k u hp =>
        obtain ⟨ht, hn⟩ := step_next hp
        refine ⟨ih.pay.next hok hkc hreach hkeys (proper_wait t _ cap) ht hn (timeout.map Duration.ns), ?_, ih.fair.see⟩
        refine ⟨Nat.zero_le _, ?_, (by intro r h; cases h)⟩
        intro d hd
        dsimp only at hd ⊢
        cases timeout with
        | none => cases hd
        | some T =>
          have hd : instantCheckedAdd unixMaxNs s.now T = some d := hd
          unfold instantCheckedAdd at hd
          split at hd <;> cases hd
          exact ⟨by assumption, T.ns, rfl, rfl⟩
      | busy t timeout cap k o hp ho =>
        obtain ⟨ht, hn⟩ := step_next hp
        have hpay := ih.pay.next hok hkc hreach hkeys (proper_wait t _ cap) ht hn none
        have hn' : (∃ u, o = .waitBegin u) ∨ (s.k = k ∧ ∃ u, o = .waitBusy u) := by
          generalize ha : KqM.Act.wait timeout.isSome cap = a at hn
          cases hn <;> first | exact .inr ⟨rfl, _, rfl⟩ | exact .inl ⟨_, rfl⟩ | (cases ha; done) | (exfalso; rename_i hf; rcases hf.act with e | ⟨_, e⟩ <;> (rw [e] at ha; cases ha))
        rcases hn' with ⟨u, e⟩ | ⟨rfl, u, rfl⟩
        · exact absurd e (ho u)
        · exact ⟨hpay, ih.clk.ofEq rfl rfl rfl rfl, ih.fair⟩
      | other t a k o fr hp hw hl =>
        obtain ⟨ht, hn⟩ := step_next hp
        have e := evL_eq hn hw
        have hpay := ih.pay.next hok hkc hreach hkeys hpa ht hn none
        rw [← e] at hpay
        have hclk : Clk { s with k, fresh := fr } (l.filterMap handT) := ih.clk.ofEq rfl rfl rfl rfl
        refine ⟨hpay, ?_, ?_⟩
        · cases hT : handT (.act t a, (some o, lapsing c s.k t a)) with
          | none => exact hclk
          | some e =>
            rcases handT_act hT with rfl | ⟨n, rfl⟩
            · exact hclk.see rfl rfl
            · exact hclk.see rfl rfl
        · unfold handL
          cases hT : handT (.act t a, (some o, lapsing c s.k t a)) with
          | some e => exact ih.fair.see
          | none =>
            dsimp only
            cases hx : lapsing c s.k t a with
            | false => exact ih.fair
            | true =>
              refine .cons ih.fair fun _ => ?_
              show timeOver none ((l.filterMap handL).filterMap HandL.seen) = true
              rw [handL_seen]
              exact ih.clk.over (hl hx)
    have eL : ((a, o) :: l).filterMap handL = (handL (a, o)).toList ++ l.filterMap handL := by
      rw [List.filterMap_cons]; cases handL (a, o) <;> rfl
    have eT : ((a, o) :: l).filterMap handT = (handT (a, o)).toList ++ l.filterMap handT := by
      rw [List.filterMap_cons]; cases handT (a, o) <;> rfl
    exact ⟨by rw [eL]; exact goal.1, by rw [eT]; exact goal.2.1, by rw [eL]; exact goal.2.2⟩

end Polling.KqC
