import Verif.Spec.Hand
import Verif.Props.C06Kq
import Verif.Proof.KqTaken
import Verif.Proof.Cnt

/-! Empty-handed waits are paid for by notifications: kqueue. -/

namespace Polling.KqM
open Kqueue KqSpec Spec

/-- What is seen of a step. -/
def handOf : (Tid × Act) × KObs → Option Hand
  | ((_, .notifyCas), _) => some .notify
  | ((_, .wait b _), .waitBegin _) => some (.wait b)
  | (_, .waitOk _ n _) => some (.back n)
  | _ => none

/-- The extension is not used with the reserved key, and reading the poller's own socket does not fail while there is something
to read. -/
def Proper : Tid × Act → Prop
  | (_, .call (.addFilter _ key _)) | (_, .call (.modifyFilter _ key _)) => key ≠ NOTIFY_KEY
  | (_, .read fail) => fail = false
  | _ => True

theorem runs_reach {c P s l} (h : Runs (fun s => ∃ cond, s = init c cond) (fun s (a : Tid × Act) => step c s a.1 a.2) P s l) :
    Reach c Any s (l.map Prod.snd) := by
  induction h with
  | init hi => obtain ⟨cond, rfl⟩ := hi; exact .init cond
  | step _ _ hs ih => exact .step ih trivial hs

/-! ### Keys -/

def regAt : Pc → Option Call
  | .insert c | .has c | .submit (.call c) _ _ => some c
  | _ => none

/-- The key of the call is not the reserved one. -/
def KeyOk : Call → Prop
  | .add _ ev _ | .modify _ ev _ => ev.key ≠ NOTIFY_KEY
  | .addFilter _ key _ | .modifyFilter _ key _ => key ≠ NOTIFY_KEY
  | _ => True

def own (d : BitVec 64) : Prop := d = keyToU64 NOTIFY_KEY

theorem own_key {k : Key} (h : own (keyToU64 k)) : k = NOTIFY_KEY := by
  unfold own keyToU64 at h; exact h

theorem changes_key {call : Call} (h : KeyOk call) {ev : KEvent} (he : ev ∈ changes call) (ha : ev.flags.add = true) : ¬ own ev.udata := by
  have hfd : ∀ {fd e mode}, e.key ≠ NOTIFY_KEY → ev ∈ fdChanges fd e mode → ¬ own ev.udata := by
    intro fd e mode hk hm ho
    simp only [fdChanges, List.mem_cons, List.mem_nil_iff, or_false] at hm
    rcases hm with rfl | rfl <;> exact hk (own_key ho)
  cases call with
  | add fd e mode => exact hfd h he
  | modify fd e mode => exact hfd h he
  | delete fd =>
    exfalso
    simp only [changes, fdChanges, List.mem_cons, List.mem_nil_iff, or_false] at he
    rcases he with rfl | rfl <;> cases ha
  | addFilter x key mode =>
    simp only [changes, List.mem_cons, List.mem_nil_iff, or_false] at he
    subst he; exact fun ho => h (own_key ho)
  | modifyFilter x key mode =>
    simp only [changes, List.mem_cons, List.mem_nil_iff, or_false] at he
    subst he; exact fun ho => h (own_key ho)
  | deleteFilter x =>
    simp only [changes, List.mem_cons, List.mem_nil_iff, or_false] at he
    subst he; cases ha

/-- Knotes of the user do not have the poller's key. -/
structure Keys (c : Cfg) (s : S) : Prop where
  calls : ∀ t call, regAt (s.pc t) = some call → KeyOk call
  knotes : ∀ f n, c.internal f = false → s.k.knotes f = some n → ¬ own n.udata

theorem Keys.pc {c s s' t p} (h : Keys c s) (hk : s'.k.knotes = s.k.knotes) (hpc : s'.pc = upd s.pc t p)
    (hp : ∀ call, regAt p = some call → KeyOk call) : Keys c s' := by
  refine ⟨fun u call hu => ?_, by rw [hk]; exact h.knotes⟩
  rw [hpc] at hu
  by_cases e : u = t
  · subst e; rw [upd_self] at hu; exact hp call hu
  · rw [upd_other _ e] at hu; exact h.calls u call hu

theorem Keys.next {c s t a s' o} (hki : KI c s.k) (hpk : ∀ u, PcOk c (s.pc u)) (ha : Proper (t, a)) (hn : Next c s t a s' o)
    (h : Keys c s) : Keys c s' := by
  have old := h.calls t
  have none_ : ∀ {p : Pc}, regAt p = none → ∀ call, regAt p = some call → KeyOk call := by
    intro p hp call hc; rw [hp] at hc; cases hc
  cases hn with
  | reject => exact h
  | panic0 => exact h
  | @begin call hp hacc hr hv =>
    refine h.pc rfl rfl ?_
    intro call' hc
    cases call with
    | add _ ev _ => cases hc; simpa [reserved, KeyOk] using hr
    | modify _ ev _ => cases hc; simpa [reserved, KeyOk] using hr
    | delete _ => cases hc; trivial
    | addFilter _ _ _ => cases hc; exact ha
    | modifyFilter _ _ _ => cases hc; exact ha
    | deleteFilter _ => cases hc; trivial
  | inserted hp => exact h.pc rfl rfl (by intro call hc; rw [hp] at old; exact old call hc)
  | has hp => exact h.pc rfl rfl (by intro call hc; rw [hp] at old; exact old call hc)
  | @change fault w ev todo done errno k hp hf hr =>
    have hreg := register_reg hr
    have hpt := hpk t
    rw [hp] at hpt old
    refine ⟨?_, ?_⟩
    · refine (h.pc (s' := { s with pc := upd s.pc t (.submit w todo (done ++ [receipt ev errno])) }) rfl rfl ?_).calls
      intro call hc
      cases w <;> first | exact old call hc | cases hc
    · intro f n hi hn
      have hn : k.knotes f = some n := hn
      by_cases e : f = ev.filter
      · subst e
        cases w with
        | call call =>
          have hcm := head_change hpt
          have hk := old call rfl
          cases hreg with
          | fault => exact h.knotes _ n hi hn
          | missing => exact h.knotes _ n hi hn
          | nothing => exact h.knotes _ n hi hn
          | delete => simp [setKnote] at hn
          | add h0 hadd =>
            rw [activate_knotes] at hn
            simp only [setKnote, if_true, Option.some.injEq] at hn
            have : n.udata = ev.udata := by rw [← hn]; unfold added; split <;> (try split) <;> rfl
            rw [this]; exact changes_key hk hcm hadd
          | addIdle h0 hadd =>
            simp only [setKnote, if_true, Option.some.injEq] at hn
            have : n.udata = ev.udata := by rw [← hn]; unfold added; split <;> (try split) <;> rfl
            rw [this]; exact changes_key hk hcm hadd
        | notify => rw [own_filter hpt.1 (by simp) (head_change hpt)] at hi; cases hi
        | rearm => rw [own_filter hpt.1 (by simp) (head_change hpt)] at hi; cases hi
      · rw [(reg_other hreg e).1] at hn; exact h.knotes f n hi hn
  | kevent hp hh hc =>
    obtain ⟨_, _, _, _, _, hb⟩ := harvest_batch hki.nodup hh
    refine ⟨?_, ?_⟩
    · refine (h.pc (s' := { s with pc := upd s.pc t _ }) rfl rfl ?_).calls
      intro call hc
      cases hu : c.user <;> rw [hu] at hc <;> cases hc
    · intro f n hi hn
      simp only [hb.knotes] at hn
      split at hn
      · unfold reported at hn; rw [Option.filter_eq_some_iff] at hn; exact h.knotes f n hi hn.1
      · exact h.knotes f n hi hn
  | write => exact h.pc (by dsimp only; rw [activate_knotes]) rfl (none_ rfl)
  | raise => exact ⟨h.calls, by dsimp only; rw [activate_knotes]; exact h.knotes⟩
  | kevRetry => exact h
  | casSeen => exact h
  | waitBusy => exact h
  | read => exact ⟨h.calls, h.knotes⟩
  | fall => exact ⟨h.calls, h.knotes⟩
  | _ => exact h.pc rfl rfl (none_ rfl)

theorem reach_keys {c P s l} (hP : ∀ a, P a → Proper a)
    (h : Runs (fun s => ∃ cond, s = init c cond) (fun s (a : Tid × Act) => step c s a.1 a.2) P s l) : Keys c s := by
  induction h with
  | init hi =>
    obtain ⟨cond, rfl⟩ := hi
    refine ⟨fun t call hc => ?_, fun f n hi hn => ?_⟩
    · have : (init c cond).pc t = .out := by unfold init; split <;> rfl
      rw [this] at hc; cases hc
    · exfalso
      unfold init at hn
      have other : ∀ {ev k}, f ≠ ev.filter → (register c none k ev).2.knotes f = k.knotes f :=
        fun hne => (reg_other (register_reg (Prod.eta _).symm) hne).1
      split at hn
      · next hu =>
        have hne : f ≠ .user 0 := by rintro rfl; rw [userInternal hu] at hi; cases hi
        simp only at hn
        rw [other hne] at hn; cases hn
      · next hu =>
        have hu : c.user = false := by simpa using hu
        have h1 : f ≠ .read c.notifFd := by rintro rfl; simp [Cfg.internal, hu] at hi
        have h2 : f ≠ .write c.notifFd := by rintro rfl; simp [Cfg.internal, hu] at hi
        simp only [fdChanges, List.foldl] at hn
        rw [other h2, other h1] at hn; cases hn
  | step hr hp hs ih =>
    have hR := runs_reach hr
    exact ih.next (reach_ki hR) (reach_pcOk hR) (hP _ hp) (step_next hs).2

/-! ### Payment -/

/-- A notification was taken by a `wait`. -/
def tok (p : Pc) : Bool := (evsAt p).any fun evs => (visible evs).isEmpty

/-- Reading the notifications away. -/
def clr : Pc → Bool
  | .wClear _ _ _ => true
  | _ => false

/-- A notification is waiting to be taken. -/
def due (c : Cfg) (k : Kern) (n : Nat) : Nat :=
  if c.user then (if .user 0 ∈ k.queue then 1 else 0)
  else (if .read c.notifFd ∈ k.queue ∨ (k.chan > 0 ∧ n = 0) then 1 else 0)

theorem due_le (c k n) : due c k n ≤ 1 := by
  unfold due; split <;> split <;> omega

def timedOf : Pc → Option Bool
  | .wKev b _ | .wClear b _ _ | .wHas b _ _ | .submit (.rearm b _ _) _ _ => some b
  | _ => none

theorem timedOf_inWait {p b} (h : timedOf p = some b) : inWait p = true := by
  unfold timedOf at h; split at h <;> first | rfl | cases h

/-- What the latest `wait` holds. -/
def held (b : Bool) (n : Nat) : Nat := if b then 0 else n

structure HInv (c : Cfg) (s : S) (l : List Hand) : Prop where
  timed : ∀ t b, timedOf (s.pc t) = some b → limited l = b
  pay : emptyBacks l + held (limited l) (cnt c.threads tok s.pc) + due c s.k (cnt c.threads clr s.pc) + cnt c.threads pend s.pc ≤ notifies l

theorem cnt_upd' {n : Nat} (P : Pc → Bool) (pc : Tid → Pc) {t : Tid} (ht : t < n) (p : Pc) :
    cnt n P (upd pc t p) + (P (pc t)).toNat = cnt n P pc + (P p).toNat := cnt_upd P pc ht p

theorem HInv.move {c s s' t l p0} (ht : t < c.threads) (h : HInv c s l) (h0 : s.pc t = p0) (p1 : Pc) (hpc : s'.pc = upd s.pc t p1)
    (htm : ∀ b, timedOf p1 = some b → timedOf p0 = some b)
    (hpay : held (limited l) (tok p1).toNat + due c s'.k (cnt c.threads clr s'.pc) + (pend p1).toNat ≤
      held (limited l) (tok p0).toNat + due c s.k (cnt c.threads clr s.pc) + (pend p0).toNat) : HInv c s' l := by
  have u1 := cnt_upd' tok s.pc ht p1
  have u2 := cnt_upd' pend s.pc ht p1
  rw [h0, ← hpc] at u1 u2
  have hp := h.pay
  refine ⟨?_, ?_⟩
  · intro u b hu
    rw [hpc] at hu
    by_cases e : u = t
    · subst e; rw [upd_self] at hu; exact h.timed u b (by rw [h0]; exact htm b hu)
    · rw [upd_other _ e] at hu; exact h.timed u b hu
  · cases hl : limited l with
    | true => rw [hl] at hp hpay; simp only [held, if_true] at hp hpay ⊢; omega
    | false => rw [hl] at hp hpay; simp only [held, Bool.false_eq_true, if_false] at hp hpay ⊢; omega

theorem held_le (b : Bool) {m n : Nat} (h : m ≤ n) : held b m ≤ held b n := by unfold held; split <;> omega

/-- The kernel is left alone. -/
theorem HInv.quiet {c s s' t l p0} (ht : t < c.threads) (h : HInv c s l) (h0 : s.pc t = p0) (p1 : Pc) (hpc : s'.pc = upd s.pc t p1)
    (hk : s'.k = s.k) (htm : ∀ b, timedOf p1 = some b → timedOf p0 = some b) (hc : clr p1 = clr p0)
    (htok : (tok p1).toNat ≤ (tok p0).toNat) (hpend : (pend p1).toNat ≤ (pend p0).toNat) : HInv c s' l := by
  have u3 := cnt_upd' clr s.pc ht p1
  rw [h0, ← hpc, hc] at u3
  have e : cnt c.threads clr s'.pc = cnt c.threads clr s.pc := by omega
  refine h.move ht h0 p1 hpc htm ?_
  rw [hk, e]
  have := held_le (limited l) htok
  omega

theorem cnt_zero' {n : Nat} {P : Pc → Bool} {pc : Tid → Pc} (h : ∀ t, P (pc t) = false) : cnt n P pc = 0 := by
  rcases Nat.eq_zero_or_pos (cnt n P pc) with h0 | h0
  · exact h0
  · obtain ⟨t, _, ht⟩ := cnt_pos.1 h0; rw [h t] at ht; cases ht

theorem no_other {c P s tr} (h : Reach c P s tr) {t} (ht : inWait (s.pc t) = true) (hc : clr (s.pc t) = false) : cnt c.threads clr s.pc = 0 := by
  apply cnt_zero'
  intro u
  by_cases e : u = t
  · rw [e]; exact hc
  · cases hx : clr (s.pc u) with
    | false => rfl
    | true =>
      have : inWait (s.pc u) = true := by
        generalize s.pc u = p at hx
        cases p <;> first | rfl | cases hx
      have a1 := (reach_lib h u).2 this
      have a2 := (reach_lib h t).2 ht
      rw [a1] at a2; exact absurd (Option.some.inj a2) e

theorem tok_inWait {p} (h : tok p = true) : inWait p = true := by
  unfold tok evsAt at h; split at h <;> first | rfl | cases h

/-- Nothing visible though something was taken: it was the notification, and it is gone from the queue. -/
theorem took_own {c P s tr} (hok : c.Ok) (hkc : C06.KeepsClear c) (h : Reach c P s tr) (hkeys : Keys c s) {cap evs k}
    (hh : harvest c s.k cap = (evs, k)) (hne : evs ≠ []) (hv : visible evs = []) :
    ∃ f, f = (if c.user then Filter.user 0 else .read c.notifFd) ∧ f ∈ s.k.queue ∧ f ∉ k.queue := by
  obtain ⟨_, _, _, _, _, hb⟩ := harvest_batch (reach_ki h).nodup hh
  generalize (List.filter _ _) = took at hb
  cases took with
  | nil => exact absurd (by rw [hb.evs]; rfl) hne
  | cons f rest =>
    have hq := hb.queued f (by simp)
    obtain ⟨n, hkn⟩ : ∃ n, s.k.knotes f = some n := by
      cases hx : s.k.knotes f with
      | none => have := hq.2; simp [hot, hx] at this
      | some n => exact ⟨n, rfl⟩
    have hi : c.internal f = true := by
      cases hi : c.internal f with
      | true => rfl
      | false =>
        exfalso
        have hk := hkeys.knotes f n hi hkn
        apply hk
        have hm : eventOf (ready c s.k) s.k.knotes f ∈ evs := by rw [hb.evs]; simp
        have hz : (toEvent (eventOf (ready c s.k) s.k.knotes f)).key = NOTIFY_KEY := by
          apply Classical.byContradiction
          intro hx
          have : toEvent (eventOf (ready c s.k) s.k.knotes f) ∈ visible evs :=
            List.mem_filter.2 ⟨List.mem_map.2 ⟨_, hm, rfl⟩, by simpa using hx⟩
          rw [hv] at this; cases this
        simpa [toEvent, eventOf, hkn, u64ToKey, own, keyToU64] using hz
    cases hu : c.user with
    | true =>
      have e : f = .user 0 := by simpa [Cfg.internal, hu] using hi
      subst e
      refine ⟨_, rfl, by simpa using hq.1, ?_⟩
      intro hin
      have := (hb.queue _ (by simpa using hin)).2 (by simp)
      have hcl := C06.reach_userClear hu hkc h n hkn
      simp [lvl, hkn, hcl] at this
    | false =>
      have hpk := reach_pairKnote hok hu h
      have e : f = .read c.notifFd := by
        have : f = .read c.notifFd ∨ f = .write c.notifFd := by simpa [Cfg.internal, hu] using hi
        rcases this with e | e
        · exact e
        · rw [e, hpk.2] at hkn; cases hkn
      subst e
      refine ⟨_, rfl, by simpa using hq.1, ?_⟩
      intro hin
      have := (hb.queue _ (by simpa using hin)).2 (by simp)
      rcases hpk.1 with h1 | h1
      · rw [h1] at hkn; cases hkn
      · simp [lvl, h1, pairKnote] at this

theorem Fin.act {s t a w r} (h : Fin s t a w r) : a = .eval ∨ ∃ e, a = .kfail e := by
  cases h with
  | eval => exact .inl rfl
  | fail => exact .inr ⟨_, rfl⟩

theorem HInv.next {c P s s' t a o tr l} (hok : c.Ok) (hkc : C06.KeepsClear c) (hr : Reach c P s tr) (hkeys : Keys c s) (ha : Proper (t, a))
    (ht : t < c.threads) (hn : Next c s t a s' o) (h : HInv c s l) : HInv c s' ((handOf ((t, a), o)).toList ++ l) := by
  have hp := h.pay
  have e1 : emptyBacks (.notify :: l) = emptyBacks l := rfl
  have e2 : notifies (.notify :: l) = notifies l + 1 := by simp [notifies]
  have e0 : limited (.notify :: l) = limited l := rfl
  have hpt := reach_pcOk hr t
  -- a `notify` call begins
  have began : ∀ p, s.pc t = .out → (p = .nWrite ∨ p = .submit .notify [userChange true] []) →
      HInv c { s with notified := true, pc := upd s.pc t p } (.notify :: l) := by
    intro p hp0 hpp
    have u1 := cnt_upd' tok s.pc ht p
    have u2 := cnt_upd' pend s.pc ht p
    have u3 := cnt_upd' clr s.pc ht p
    rw [hp0] at u1 u2 u3
    have x1 : tok p = false := by rcases hpp with rfl | rfl <;> rfl
    have x3 : clr p = false := by rcases hpp with rfl | rfl <;> rfl
    have x2 : pend p = true := by rcases hpp with rfl | rfl <;> rfl
    have x4 : timedOf p = none := by rcases hpp with rfl | rfl <;> rfl
    rw [x1] at u1; rw [x2] at u2; rw [x3] at u3
    have y1 : cnt c.threads tok (upd s.pc t p) = cnt c.threads tok s.pc := u1
    have y2 : cnt c.threads pend (upd s.pc t p) = cnt c.threads pend s.pc + 1 := u2
    have y3 : cnt c.threads clr (upd s.pc t p) = cnt c.threads clr s.pc := u3
    refine ⟨?_, ?_⟩
    · intro u b hu
      simp only at hu
      by_cases e : u = t
      · subst e; rw [upd_self, x4] at hu; cases hu
      · rw [upd_other _ e] at hu; exact h.timed u b hu
    · simp only [e0, e1, e2, y1, y2, y3]; omega
  cases hn with
  | reject => exact h
  | panic0 => exact h
  | @begin call hp0 => exact h.quiet ht hp0 _ rfl rfl (by intro b hb; cases call <;> cases hb) (by cases call <;> rfl) (by cases call <;> exact Nat.le_refl _) (by cases call <;> exact Nat.le_refl _)
  | dup hp0 => exact h.quiet ht hp0 _ rfl rfl (by intro b hb; cases hb) rfl (Nat.le_refl _) (Nat.le_refl _)
  | inserted hp0 => exact h.quiet ht hp0 _ rfl rfl (by intro b hb; cases hb) rfl (Nat.le_refl _) (Nat.le_refl _)
  | missing hp0 =>
    rcases hp0 with hp0 | hp0 <;>
      exact h.quiet ht hp0 _ rfl rfl (by intro b hb; cases hb) rfl (Nat.le_refl _) (Nat.le_refl _)
  | panic hp0 => exact h.quiet ht hp0 _ rfl rfl (by intro b hb; cases hb) rfl (Nat.le_refl _) (Nat.le_refl _)
  | has hp0 => exact h.quiet ht hp0 _ rfl rfl (by intro b hb; cases hb) rfl (Nat.le_refl _) (Nat.le_refl _)
  | removed hp0 => exact h.quiet ht hp0 _ rfl rfl (by intro b hb; cases hb) rfl (Nat.le_refl _) (Nat.le_refl _)
  | ended hp0 => exact h.quiet ht hp0 _ rfl rfl (by intro b hb; cases hb) rfl (Nat.le_refl _) (Nat.le_refl _)
  | wMissing hp0 => exact h.quiet ht hp0 _ rfl rfl (by intro b hb; cases hb) rfl (Nat.zero_le _) (Nat.le_refl _)
  | wHas hp0 => exact h.quiet ht hp0 _ rfl rfl (by intro b hb; exact hb) rfl (Nat.le_refl _) (Nat.le_refl _)
  | finCall hf =>
    obtain ⟨_, _, hp0⟩ := hf.pc
    rcases hf.act with rfl | ⟨_, rfl⟩ <;>
      exact h.quiet ht hp0 _ rfl rfl (by intro b hb; cases hb) rfl (Nat.zero_le _) (Nat.zero_le _)
  | finDelete hf =>
    obtain ⟨_, _, hp0⟩ := hf.pc
    rcases hf.act with rfl | ⟨_, rfl⟩ <;>
      exact h.quiet ht hp0 _ rfl rfl (by intro b hb; cases hb) rfl (Nat.zero_le _) (Nat.zero_le _)
  | finNotify hf =>
    obtain ⟨_, _, hp0⟩ := hf.pc
    rcases hf.act with rfl | ⟨_, rfl⟩ <;>
      exact h.quiet ht hp0 _ rfl rfl (by intro b hb; cases hb) rfl (Nat.zero_le _) (Nat.zero_le _)
  | finRearm hf =>
    obtain ⟨_, _, hp0⟩ := hf.pc
    rcases hf.act with rfl | ⟨_, rfl⟩ <;>
      exact h.quiet ht hp0 _ rfl rfl (by intro b hb; cases hb) rfl (Nat.le_refl _) (Nat.zero_le _)
  | rearmRetry hf =>
    obtain ⟨_, _, hp0⟩ := hf.pc
    rcases hf.act with rfl | ⟨_, rfl⟩ <;>
      exact h.quiet ht hp0 _ rfl rfl (by intro b hb; exact hb) rfl (Nat.zero_le _) (Nat.zero_le _)
  | rearmErr hf =>
    obtain ⟨_, _, hp0⟩ := hf.pc
    rcases hf.act with rfl | ⟨_, rfl⟩ <;>
      exact h.quiet ht hp0 _ rfl rfl (by intro b hb; cases hb) rfl (Nat.zero_le _) (Nat.zero_le _)
  | kevRetry => exact h
  | kevErr hp0 => exact h.quiet ht hp0 _ rfl rfl (by intro b hb; cases hb) rfl (Nat.le_refl _) (Nat.le_refl _)
  | casSeen => exact ⟨h.timed, by simp only [handOf, Option.toList, List.cons_append, List.nil_append, e0, e1, e2]; omega⟩
  | casUser hp0 hn0 hu => exact began _ hp0 (.inr rfl)
  | casPair hp0 hn0 hu => exact began _ hp0 (.inl rfl)
  | writeFail hp0 => exact h.quiet ht hp0 _ rfl rfl (by intro b hb; cases hb) rfl (Nat.le_refl _) (Nat.zero_le _)
  | write hp0 =>
    refine HInv.move (l := l) ht h hp0 .out rfl (by intro b hb; cases hb) ?_
    exact (show ∀ x y z : Nat, x ≤ 1 → y + x + 0 ≤ y + z + 1 from by omega) _ _ _ (due_le _ _ _)
  | waitBusy => exact h
  | @waitBegin timed cap hp0 hl hc =>
    have nobody : ∀ u, inWait (s.pc u) = false := by
      intro u
      cases hx : inWait (s.pc u) with
      | false => rfl
      | true => have := (reach_lib hr u).2 hx; rw [hl] at this; cases this
    have z : ∀ u, tok (upd s.pc t (.wKev timed cap) u) = false := by
      intro u
      by_cases e : u = t
      · subst e; rw [upd_self]; rfl
      · rw [upd_other _ e]
        cases hx : tok (s.pc u) with
        | false => rfl
        | true => have := nobody u; rw [tok_inWait hx] at this; cases this
    have u2 := cnt_upd' pend s.pc ht (.wKev timed cap)
    have u3 := cnt_upd' clr s.pc ht (.wKev timed cap)
    rw [hp0] at u2 u3
    have y2 : cnt c.threads pend (upd s.pc t (.wKev timed cap)) = cnt c.threads pend s.pc := u2
    have y3 : cnt c.threads clr (upd s.pc t (.wKev timed cap)) = cnt c.threads clr s.pc := u3
    have e3 : notifies (.wait timed :: l) = notifies l := by simp [notifies]
    refine ⟨?_, ?_⟩
    · intro u b hu
      simp only at hu
      by_cases e : u = t
      · subst e; rw [upd_self] at hu; exact Option.some.inj hu
      · rw [upd_other _ e] at hu
        have := nobody u
        rw [timedOf_inWait hu] at this; cases this
    · show emptyBacks l + held timed (cnt c.threads tok (upd s.pc t (.wKev timed cap))) + due c s.k (cnt c.threads clr (upd s.pc t (.wKev timed cap))) +
        cnt c.threads pend (upd s.pc t (.wKev timed cap)) ≤ notifies (.wait timed :: l)
      rw [cnt_zero' z, y2, y3, e3]
      have : held timed 0 = 0 := by unfold held; split <;> rfl
      omega
  | @change fault w ev todo done errno k hp0 hf hreg =>
    have hreg := register_reg hreg
    rw [hp0] at hpt
    have hand : handOf ((t, .change fault), changeObs t ev errno) = none := by
      unfold changeObs; split
      · rfl
      · split <;> rfl
    rw [hand]
    have u3 := cnt_upd' clr s.pc ht (.submit w todo (done ++ [receipt ev errno]))
    rw [hp0] at u3
    have y3 : cnt c.threads clr (upd s.pc t (.submit w todo (done ++ [receipt ev errno]))) = cnt c.threads clr s.pc := by
      have : clr (.submit w todo (done ++ [receipt ev errno])) = false := rfl
      have : clr (.submit w (ev :: todo) done) = false := rfl
      simp_all
    refine HInv.move (l := l) ht h hp0 (.submit w todo (done ++ [receipt ev errno])) rfl ?_ ?_
    · intro b hb; cases w <;> first | exact hb | cases hb
    · have t1 : tok (.submit w todo (done ++ [receipt ev errno])) = tok (.submit w (ev :: todo) done) := by cases w <;> rfl
      simp only [y3, t1]
      cases w with
      | call call =>
        have hd : due c k (cnt c.threads clr s.pc) = due c s.k (cnt c.threads clr s.pc) := by
          unfold due
          cases hu : c.user with
          | true =>
            have := (reg_other hreg (call_filter_ne hpt (userInternal hu))).2
            simp only [if_true, this]
          | false =>
            have := (reg_other hreg (call_filter_ne hpt (readInternal hu))).2
            simp only [Bool.false_eq_true, if_false, this, (reg_env hreg).2]
        rw [hd]
        have : pend (.submit (.call call) todo (done ++ [receipt ev errno])) = false := rfl
        rw [this]
        simp only [Bool.toNat_false]
        omega
      | notify =>
        obtain ⟨rfl, rfl, rfl⟩ := notify_change hpt
        have a1 := due_le c k (cnt c.threads clr s.pc)
        have a4 : pend (.submit .notify [] ([] ++ [receipt (userChange true) errno])) = false := rfl
        have a5 : pend (.submit .notify [userChange true] []) = true := rfl
        rw [a4, a5]
        simp only [Bool.toNat_false, Bool.toNat_true]
        omega
      | rearm timed cap evs =>
        have hu : c.user = false := hpt.1.1
        have hz : cnt c.threads clr s.pc = 0 := no_other hr (t := t) (by rw [hp0]; rfl) (by rw [hp0]; rfl)
        have hd : due c k 0 ≤ due c s.k 0 := by
          unfold due
          simp only [hu, Bool.false_eq_true, if_false, (reg_env hreg).2]
          rcases rearm_change hpt with ⟨h1, h2, h3, _⟩ | ⟨h1, h2, _⟩
          · cases hfl : fault with
            | some e =>
              cases hreg with
              | fault => exact Nat.le_refl _
              | _ => simp_all
            | none =>
              have hq := (knote_after hreg (by rw [h2]; rfl) hfl).2.2
              rw [h1] at hq
              have hfr : fires c s.k ev = true ↔ s.k.chan > 0 := by
                unfold fires; rw [h1]; simp only [ready, hu]
                by_cases hch : s.k.chan > 0 <;> simp [hch]
              rw [hfr] at hq
              by_cases ho : Filter.read c.notifFd ∈ k.queue ∨ s.k.chan > 0 ∧ True
              · have : Filter.read c.notifFd ∈ s.k.queue ∨ s.k.chan > 0 ∧ True := by
                  rcases ho with ho | ho
                  · rcases hq.1 ho with hx | hx
                    · exact .inl hx
                    · exact .inr ⟨hx, trivial⟩
                  · exact .inr ho
                rw [if_pos ho, if_pos this]; exact Nat.le_refl _
              · rw [if_neg ho]; exact Nat.zero_le _
          · have := (reg_other hreg (f := .read c.notifFd) (by rw [h1]; simp)).2
            simp only [this]; exact Nat.le_refl _
        rw [hz]
        have : pend (.submit (.rearm timed cap evs) todo (done ++ [receipt ev errno])) = false := rfl
        rw [this]
        simp only [Bool.toNat_false]
        omega
  | @kevent timed cap evs k hp0 hh hc =>
    obtain ⟨_, _, _, _, _, hb⟩ := harvest_batch (reach_ki hr).nodup hh
    have hl : limited l = timed := h.timed t timed (by rw [hp0]; rfl)
    generalize hp1 : (if c.user then Pc.wFin evs else .wClear timed cap evs) = p1
    have htok : tok p1 = (visible evs).isEmpty := by subst hp1; cases c.user <;> rfl
    have hpnd : pend p1 = false := by subst hp1; cases c.user <;> rfl
    have htm : ∀ b, timedOf p1 = some b → timedOf (.wKev timed cap) = some b := by
      intro b hb'; subst hp1; cases hu : c.user <;> rw [hu] at hb' <;> first | exact hb' | cases hb'
    refine HInv.move (l := l) ht h hp0 p1 rfl htm ?_
    have a3 : tok (.wKev timed cap) = false := rfl
    have a5 : pend (.wKev timed cap) = false := rfl
    simp only [htok, hpnd, a3, a5, Bool.toNat_false]
    have hz : held (limited l) 0 = 0 := by unfold held; split <;> rfl
    rw [hz]
    have hdue : due c k (cnt c.threads clr (upd s.pc t p1)) + (if timed = false ∧ visible evs = [] then 1 else 0) ≤ due c s.k (cnt c.threads clr s.pc) := by
      have hpos : c.user = false → cnt c.threads clr (upd s.pc t p1) > 0 := by
        intro hu
        refine cnt_pos.2 ⟨t, ht, ?_⟩
        rw [upd_self]; subst hp1; rw [hu]; rfl
      by_cases hx : timed = false ∧ visible evs = []
      · rw [if_pos hx]
        have hne : evs ≠ [] := by
          rcases hc with hc | hc
          · exact hc
          · rw [hx.1] at hc; cases hc
        obtain ⟨f, hf, hin, hout⟩ := took_own hok hkc hr hkeys hh hne hx.2
        unfold due
        cases hu : c.user with
        | true =>
          rw [hu] at hf; simp only [if_true] at hf; subst hf
          simp only [if_true]
          rw [if_neg hout, if_pos hin]; exact Nat.le_refl _
        | false =>
          rw [hu] at hf; simp only [Bool.false_eq_true, if_false] at hf; subst hf
          simp only [Bool.false_eq_true, if_false]
          have := hpos hu
          rw [if_neg (by rintro (h1 | h1); exact hout h1; omega), if_pos (.inl hin)]; exact Nat.le_refl _
      · rw [if_neg hx]
        unfold due
        cases hu : c.user with
        | true =>
          simp only [if_true]
          by_cases h1 : Filter.user 0 ∈ k.queue
          · rw [if_pos h1, if_pos (hb.queue _ h1).1]; exact Nat.le_refl _
          · rw [if_neg h1]; exact Nat.zero_le _
        | false =>
          simp only [Bool.false_eq_true, if_false]
          have := hpos hu
          by_cases h1 : Filter.read c.notifFd ∈ k.queue
          · rw [if_pos (.inl h1), if_pos (.inl (hb.queue _ h1).1)]; exact Nat.le_refl _
          · rw [if_neg (by rintro (h2 | h2); exact h1 h2; omega)]; exact Nat.zero_le _
    have hh' : held (limited l) (visible evs).isEmpty.toNat ≤ (if timed = false ∧ visible evs = [] then 1 else 0) := by
      rw [hl]
      cases timed with
      | true => exact Nat.zero_le _
      | false =>
        simp only [held, Bool.false_eq_true, if_false]
        cases hv : visible evs with
        | nil => simp
        | cons => simp
    omega
  | @read timed cap evs hp0 hc =>
    refine ⟨h.timed, ?_⟩
    have hpos : cnt c.threads clr s.pc > 0 := cnt_pos.2 ⟨t, ht, by rw [hp0]; rfl⟩
    have : due c { s.k with chan := s.k.chan - 64 } (cnt c.threads clr s.pc) = due c s.k (cnt c.threads clr s.pc) := by
      unfold due
      have n1 : ∀ m, (m > 0 ∧ cnt c.threads clr s.pc = 0) ↔ False := by intro m; constructor; intro h; omega; exact False.elim
      simp only [n1]
    show emptyBacks l + held (limited l) (cnt c.threads tok s.pc) + due c { s.k with chan := s.k.chan - 64 } (cnt c.threads clr s.pc) + cnt c.threads pend s.pc ≤ notifies l
    rw [this]; exact hp
  | @readEnd timed cap evs fail hp0 hc =>
    have hch : s.k.chan = 0 := by
      rcases hc with hc | hc
      · exact hc
      · have : fail = false := ha
        rw [hc] at this; cases this
    refine HInv.move (l := l) ht h hp0 (.wHas timed cap evs) rfl (by intro b hb; exact hb) ?_
    have a1 : tok (.wHas timed cap evs) = tok (.wClear timed cap evs) := rfl
    have a2 : pend (.wHas timed cap evs) = pend (.wClear timed cap evs) := rfl
    rw [a1, a2]
    have : due c s.k (cnt c.threads clr (upd s.pc t (.wHas timed cap evs))) ≤ due c s.k (cnt c.threads clr s.pc) := by
      have n1 : ∀ m : Nat, (s.k.chan > 0 ∧ m = 0) ↔ False := by intro m; constructor; intro h; omega; exact False.elim
      unfold due
      simp only [n1]
      exact Nat.le_refl _
    simp only
    omega
  | @finish evs hp0 =>
    have u1 := cnt_upd' tok s.pc ht .out
    have u2 := cnt_upd' pend s.pc ht .out
    have u3 := cnt_upd' clr s.pc ht .out
    rw [hp0] at u1 u2 u3
    have y1 : cnt c.threads tok (upd s.pc t .out) + (visible evs).isEmpty.toNat = cnt c.threads tok s.pc := u1
    have y2 : cnt c.threads pend (upd s.pc t .out) = cnt c.threads pend s.pc := u2
    have y3 : cnt c.threads clr (upd s.pc t .out) = cnt c.threads clr s.pc := u3
    have e3 : notifies (.back (visible evs).length :: l) = notifies l := by simp [notifies]
    refine ⟨?_, ?_⟩
    · intro u b hu
      simp only at hu
      by_cases e : u = t
      · subst e; rw [upd_self] at hu; cases hu
      · rw [upd_other _ e] at hu; exact h.timed u b hu
    · show emptyBacks (.back (visible evs).length :: l) + held (limited l) (cnt c.threads tok (upd s.pc t .out)) +
        due c s.k (cnt c.threads clr (upd s.pc t .out)) + cnt c.threads pend (upd s.pc t .out) ≤ notifies (.back (visible evs).length :: l)
      rw [y2, y3, e3]
      cases hv : visible evs with
      | nil =>
        rw [hv] at y1
        simp only [List.isEmpty_nil, Bool.toNat_true] at y1
        simp only [List.length_nil, emptyBacks]
        cases hl : limited l with
        | true => rw [hl] at hp; simp only [held, if_true] at hp ⊢; omega
        | false => rw [hl] at hp; simp only [held, Bool.false_eq_true, if_false] at hp ⊢; omega
      | cons x xs =>
        simp only [List.length_cons, emptyBacks]
        have := held_le (limited l) (Nat.le.intro y1)
        omega
  | @raise f v hi =>
    refine ⟨h.timed, ?_⟩
    have hd : due c (activate { s.k with cond := fun x => if x = f then some v else s.k.cond x } f) (cnt c.threads clr s.pc) =
        due c s.k (cnt c.threads clr s.pc) := by
      unfold due
      simp only [activate_mem, activate_chan]
      cases hu : c.user with
      | true =>
        have : Filter.user 0 ≠ f := by rintro rfl; rw [userInternal hu] at hi; cases hi
        simp [this]
      | false =>
        have : Filter.read c.notifFd ≠ f := by rintro rfl; rw [readInternal hu] at hi; cases hi
        simp [this]
    show emptyBacks l + held (limited l) (cnt c.threads tok s.pc) +
      due c (activate { s.k with cond := fun x => if x = f then some v else s.k.cond x } f) (cnt c.threads clr s.pc) + cnt c.threads pend s.pc ≤ notifies l
    rw [hd]; exact hp
  | fall => exact ⟨h.timed, h.pay⟩

theorem reach_hand {c : Cfg} (hok : c.Ok) (hkc : C06.KeepsClear c) {P s l} (hP : ∀ a, P a → Proper a)
    (h : Runs (fun s => ∃ cond, s = init c cond) (fun s (a : Tid × Act) => step c s a.1 a.2) P s l) : HInv c s (l.filterMap handOf) := by
  induction h with
  | @init s hi =>
    obtain ⟨cond, rfl⟩ := hi
    have hpc : ∀ t, (init c cond).pc t = .out := by intro t; unfold init; split <;> rfl
    refine ⟨fun t b h => (by rw [hpc] at h; cases h), ?_⟩
    rw [cnt_zero' fun t => by rw [hpc]; rfl, cnt_zero' fun t => by rw [hpc]; rfl, cnt_zero' fun t => by rw [hpc]; rfl]
    have : due c (init c cond).k 0 = 0 := by
      unfold due init
      cases hu : c.user with
      | true => simp [register, userChange, setKnote, fires]
      | false => simp [fdChanges, List.foldl, register, changeFlags, Event.onlyReadable, Event.new, modeToFlags, setKnote, fires, ready, hu]
    rw [this]; exact Nat.le_refl _
  | @step s l a s' o hr hp hs ih =>
    obtain ⟨ht, hn⟩ := step_next hs
    have := ih.next hok hkc (runs_reach hr) (reach_keys hP hr) (hP _ hp) ht hn
    have e : ((a, o) :: l).filterMap handOf = (handOf (a, o)).toList ++ l.filterMap handOf := by
      rw [List.filterMap_cons]; cases handOf (a, o) <;> rfl
    rw [e]; exact this

end Polling.KqM
