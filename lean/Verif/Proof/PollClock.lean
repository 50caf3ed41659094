import Verif.Model.PollClock
import Verif.Proof.HandLapse
import Verif.Proof.HandPoll
import Verif.Proof.TimeLemmas
import Verif.Proof.EpollTimer

/-! Empty-handed waits are paid for by notifications, or their time is over: poll(2). -/

namespace Polling.PollP
open PollB PollFlags PollSpec Spec

/-! ### Payment, by the machine without a clock -/

def osAny : Pc → Option (Fd → Flags → Flags)
  | .wPopAll _ os | .wSwap2 _ os => some os
  | _ => none

theorem wake_osAny (pc : Tid → Pc) (u : Tid) : osAny (wake pc u) = osAny (pc u) := by
  unfold wake; split
  · next h => rw [h]; rfl
  · rfl

theorem osAny_holds {p os} (h : osAny p = some os) : holds p = true := by
  unfold osAny at h; split at h <;> first | rfl | cases h

/-- A notification was taken by a `wait`, if the OS has not given up on it. -/
def tokAny : Pc → Bool
  | .wPop _ => true
  | .wUnlock _ (.ok evs) | .wFinish _ (.ok evs) => (visible evs).isEmpty
  | _ => false

theorem tokAny_inWait {p} (h : tokAny p = true) : inWait p = true := by
  cases p <;> first | rfl | cases h

/-- Something is ready, or `poll()` gave up. -/
def Rdy (s : S) (x : Bool) : Prop := ∀ t os, osAny (s.pc t) = some os → (osPoll os s.tbl.pollFds).2 > 0 ∨ x = true

theorem Rdy.self {s : S} {x} (ih : Rdy s x) (t : Tid) (p : Pc) (hp : ∀ os, osAny p = some os → (osPoll os s.tbl.pollFds).2 > 0 ∨ x = true) :
    ∀ u os, osAny (upd s.pc t p u) = some os → (osPoll os s.tbl.pollFds).2 > 0 ∨ x = true := by
  intro u os hu
  unfold upd at hu
  split at hu
  · exact hp os hu
  · exact ih u os hu

/-- `poll()` gives up. -/
def lapsing (s : S) : Act → Bool
  | .waitPoll os => (osPoll os s.tbl.pollFds).2 == 0
  | _ => false

theorem next_rdy {c : Cfg} {s s' : S} {t : Tid} {a : Act} {o : PObs} {x} (hI : I c s) (hn : Next c s t a s' o) (ih : Rdy s x) :
    Rdy s' (x || lapsing s a) := by
  have alone : ∀ p tbl, holds (s.pc t) = true → osAny p = none → ∀ u os, osAny (upd s.pc t p u) = some os → (osPoll os (tbl : Fds).pollFds).2 > 0 := by
    intro p tbl ht hp u os hu
    unfold upd at hu
    split at hu
    · rw [hp] at hu; cases hu
    · next hne =>
      exfalso; apply hne
      have a1 := (hI.mtx u).1 (osAny_holds hu)
      have a2 := (hI.mtx t).1 ht
      rw [a1] at a2; exact Option.some.inj a2
  have hold := ih t
  have weak : ∀ {n : Nat} {y}, n > 0 ∨ x = true → n > 0 ∨ (x || y) = true := fun h => h.imp_right fun e => by rw [e]; rfl
  have hcount : ∀ os, (osPoll os s.tbl.pollFds).2 > 0 ∨ (x || (osPoll os s.tbl.pollFds).2 == 0) = true := by
    intro os
    cases hc : (osPoll os s.tbl.pollFds).2 with
    | zero => right; simp
    | succ n => left; omega
  cases hn
  case notifyAtOnce | waitBusy => exact fun u os hu => weak (ih u os hu)
  case notifyCv | callCv =>
    intro u os hu
    rw [wake_osAny] at hu
    exact weak (ih.self t _ (by intro os h; cases h) u os hu)
  case callApply h _ => exact fun u os hu => .inl (alone _ _ (by rw [h]; rfl) rfl u os hu)
  case waitAgain h _ _ => exact fun u os hu => .inl (alone _ _ (by rw [h]; rfl) rfl u os hu)
  case waitDone h _ _ => exact fun u os hu => .inl (alone _ _ (by rw [h]; rfl) rfl u os hu)
  case waitPollNote b os h _ _ hrd =>
    intro u os' hu
    simp only [upd] at hu
    split at hu
    · cases hu; exact hcount os
    · exact weak (ih u os' hu)
  case waitPoll b os h _ _ hrd =>
    intro u os' hu
    simp only [upd] at hu
    split at hu
    · cases hu; exact hcount os
    · exact weak (ih u os' hu)
  case waitPopAllMore h _ => exact fun u os hu => weak (ih.self t _ (by intro os h'; rw [h] at hold; exact hold os h') u os hu)
  case waitPopAll b os h _ => exact fun u os hu => weak (ih.self t _ (by intro os h'; rw [h] at hold; exact hold os h') u os hu)
  all_goals exact fun u os hu => weak (ih.self t _ (by intro os h; cases h) u os hu)

/-- Who pays. -/
def LPay (c : Cfg) (s : S) (l : List HandL) : Prop :=
  unexcused l + (if excused l then 0 else cnt c.threads tokAny s.pc) + s.notified.toNat + cnt c.threads setting s.pc ≤ notifiesL l

structure LInv (c : Cfg) (s : S) (l : List HandL) : Prop where
  rdy : Rdy s (excused l)
  pay : LPay c s l

/-- A thread moves, nothing is seen. -/
theorem LPay.move {c s s' t l p0} (ht : t < c.threads) (h : LPay c s l) (h0 : s.pc t = p0) (p1 : Pc)
    (hpc : s'.pc = upd s.pc t p1 ∨ s'.pc = wake (upd s.pc t p1))
    (hpay : (if excused l then 0 else (tokAny p1).toNat) + s'.notified.toNat + (setting p1).toNat ≤
      (if excused l then 0 else (tokAny p0).toNat) + s.notified.toNat + (setting p0).toNat) : LPay c s' l := by
  have w1 : cnt c.threads tokAny s'.pc = cnt c.threads tokAny (upd s.pc t p1) := by
    rcases hpc with e | e
    · rw [e]
    · rw [e]; exact cnt_wake (fun _ => rfl) _
  have w2 : cnt c.threads setting s'.pc = cnt c.threads setting (upd s.pc t p1) := by
    rcases hpc with e | e
    · rw [e]
    · rw [e]; exact cnt_wake (fun _ => rfl) _
  have u1 := cnt_upd tokAny s.pc ht p1
  have u2 := cnt_upd setting s.pc ht p1
  rw [h0] at u1 u2
  unfold LPay at *
  rw [w1, w2]
  cases hx : excused l <;> rw [hx] at h hpay <;> simp only [if_true, if_false, Bool.false_eq_true] at h hpay ⊢ <;> omega

/-- What is seen of a step other than the beginning of a `wait`. -/
def evL (s : S) (a : Act) (o : PObs) : Option HandL :=
  match a, o with
  | .notifyCas, _ => some (.see .notify)
  | _, .waitOk _ n _ => some (.see (.back n))
  | .waitPoll os, _ => if (osPoll os s.tbl.pollFds).2 == 0 then some .lapse else none
  | _, _ => none

theorem excused_ev {c : Cfg} {s s' : S} {t : Tid} {a : Act} {o : PObs} {l : List HandL} (hn : Next c s t a s' o) :
    excused ((evL s a o).toList ++ l) = (excused l || lapsing s a) := by
  cases hn
  case waitPollNote b os h _ _ hrd =>
    simp only [evL, lapsing]
    cases (osPoll os s.tbl.pollFds).2 == 0 <;> simp [excused]
  case waitPoll b os h _ _ hrd =>
    simp only [evL, lapsing]
    cases (osPoll os s.tbl.pollFds).2 == 0 <;> simp [excused]
  all_goals simp [evL, lapsing, excused]

theorem LPay.next {c P s s' t a o tr l} (hr : Reach c P s tr) (ht : t < c.threads) (hn : Next c s t a s' o) (hw : ∀ b, a ≠ .waitBegin b)
    (h : LInv c s l) : LPay c s' ((evL s a o).toList ++ l) := by
  have hp := h.pay
  cases hn
  case notifyAtOnce hp1 hn =>
    show unexcused l + (if excused l then 0 else _) + _ + _ ≤ notifiesL l + 1
    unfold LPay at hp; omega
  case notifyCas hp1 hn =>
    have u1 := cnt_upd tokAny s.pc ht .nSwap
    have u2 := cnt_upd setting s.pc ht .nSwap
    simp only [hp1, tokAny, setting, Bool.toNat_true, Bool.toNat_false] at u1 u2
    show unexcused l + (if excused l then 0 else cnt c.threads tokAny (upd s.pc t .nSwap)) + s.notified.toNat + cnt c.threads setting (upd s.pc t .nSwap) ≤ notifiesL l + 1
    unfold LPay at hp
    have e : cnt c.threads tokAny (upd s.pc t .nSwap) = cnt c.threads tokAny s.pc := by omega
    rw [e]; omega
  case waitBegin b _ _ => exact absurd rfl (hw b)
  case waitBusy => exact hp
  case waitOk b evs hp1 =>
    have u1 := cnt_upd tokAny s.pc ht .out
    have u2 := cnt_upd setting s.pc ht .out
    simp only [hp1, setting, Bool.toNat_false] at u2
    rw [hp1] at u1
    show unexcused (.see (.back (visible evs).length) :: l) + (if excused l then 0 else cnt c.threads tokAny (upd s.pc t .out)) + s.notified.toNat +
      cnt c.threads setting (upd s.pc t .out) ≤ notifiesL l
    unfold LPay at hp
    have e0 : (tokAny Pc.out).toNat = 0 := rfl
    cases hv : visible evs with
    | nil =>
      simp only [List.length_nil, unexcused]
      have e1 : (tokAny (Pc.wFinish b (.ok evs))).toNat = 1 := by simp [tokAny, hv]
      cases hx : excused l <;> rw [hx] at hp <;> simp only [if_true, if_false, Bool.false_eq_true] at hp ⊢ <;> omega
    | cons x xs =>
      simp only [List.length_cons, unexcused]
      cases hx : excused l <;> rw [hx] at hp <;> simp only [if_true, if_false, Bool.false_eq_true] at hp ⊢ <;> omega
  case waitSwapSet b hp1 hn =>
    refine LPay.move (l := l) ht hp hp1 _ (.inl rfl) ?_
    rw [hn]; cases excused l <;> simp [tokAny, setting]
  case waitSwap b hp1 hn => exact hp.move ht hp1 _ (.inl rfl) (by simp [tokAny, setting])
  case waitPop b hp1 hn => exact hp.move ht hp1 _ (.inl rfl) (by simp [tokAny, setting, visible])
  case waitPopFail b hp1 hn => exact hp.move ht hp1 _ (.inl rfl) (by cases excused l <;> simp [tokAny, setting])
  case waitAgain b os order tbl hp1 ho hrd => exact hp.move ht hp1 _ (.inl rfl) (by simp [tokAny, setting])
  case waitDone b os order tbl evs hp1 ho hrd =>
    refine LPay.move (l := l) ht hp hp1 _ (.inl rfl) ?_
    cases hx : excused l with
    | true => simp [tokAny, setting]
    | false =>
      simp only [tokAny, setting, Bool.toNat_false, Bool.false_eq_true, if_false]
      cases hv : visible evs with
      | nil =>
        have hc := h.rdy t os (by rw [hp1]; rfl)
        rw [hx] at hc
        rw [done_empty_of hr (hc.resolve_right (by simp)) ho hrd hv]; simp
      | cons x xs => simp
  case waitUnlock b r hp1 => exact hp.move ht hp1 _ (.inl rfl) (by cases r <;> simp [tokAny, setting])
  case waitPollFail b e hp1 => exact hp.move ht hp1 _ (.inl rfl) (by simp [tokAny, setting])
  case notifyCv hp1 => exact hp.move ht hp1 _ (.inr rfl) (by simp [tokAny, setting])
  case callCv r hp1 => exact hp.move ht hp1 _ (.inr rfl) (by simp [tokAny, setting])
  case notifySwap hp1 hn => exact hp.move ht hp1 _ (.inl rfl) (by simp [tokAny, setting])
  case waitPollNote b os hp1 _ _ _ =>
    have hm : LPay c { s with pc := upd s.pc t (.wPopAll b os) } l := hp.move ht hp1 _ (.inl rfl) (by simp [tokAny, setting])
    simp only [evL]
    split
    · show unexcused l + 0 + _ + _ ≤ notifiesL l
      unfold LPay at hm; omega
    · exact hm
  case waitPoll b os hp1 _ _ _ =>
    have hm : LPay c { s with pc := upd s.pc t (.wSwap2 b os) } l := hp.move ht hp1 _ (.inl rfl) (by simp [tokAny, setting])
    simp only [evL]
    split
    · show unexcused l + 0 + _ + _ ≤ notifiesL l
      unfold LPay at hm; omega
    · exact hm
  all_goals
    have hp1 := ‹s.pc t = _›
    refine hp.move ht hp1 _ (.inl rfl) ?_
    simp [tokAny, setting]

theorem LInv.next {c P s s' t a o tr l} (hr : Reach c P s tr) (ht : t < c.threads) (hn : Next c s t a s' o) (hw : ∀ b, a ≠ .waitBegin b)
    (h : LInv c s l) : LInv c s' ((evL s a o).toList ++ l) :=
  ⟨by rw [excused_ev hn]; exact next_rdy (reach_I hr) hn h.rdy, .next hr ht hn hw h⟩

theorem LInv.begin {c P s s' t b o tr l} (hr : Reach c P s tr) (ht : t < c.threads) (hn : Next c s t (.waitBegin b) s' o) (h : LInv c s l)
    (to : Option Nat) : LInv c s' (.see (.wait to) :: l) := by
  have hI := reach_I hr
  have hp := h.pay
  cases hn
  case waitBegin hp1 hl =>
    have none' : ∀ u, inWait (s.pc u) = false := fun u => by
      cases hw : inWait (s.pc u) with
      | false => rfl
      | true => have := (hI.lib u).1 hw; rw [hl] at this; cases this
    have z : cnt c.threads tokAny s.pc = 0 := cnt_zero.2 fun u _ => by
      cases hk : tokAny (s.pc u) with
      | false => rfl
      | true => have := tokAny_inWait hk; rw [none' u] at this; cases this
    have u1 := cnt_upd tokAny s.pc ht (.wLock b)
    have u2 := cnt_upd setting s.pc ht (.wLock b)
    simp only [hp1, tokAny, setting, Bool.toNat_false] at u1 u2
    refine ⟨?_, ?_⟩
    · intro u os hu
      simp only [upd] at hu
      split at hu
      · cases hu
      · exfalso
        have hw : inWait (s.pc u) = true := by
          have e := hu
          cases hpc : s.pc u <;> rw [hpc] at e <;> first | rfl | cases e
        rw [none' u] at hw; cases hw
    · show unexcused l + cnt c.threads tokAny (upd s.pc t (.wLock b)) + s.notified.toNat + cnt c.threads setting (upd s.pc t (.wLock b)) ≤ notifiesL l
      unfold LPay at hp
      omega

theorem LInv.pass {c s l} (h : LInv c s l) (dt : Nat) : LInv c s (.see (.pass dt) :: l) := ⟨h.rdy, h.pay⟩

theorem LInv.init (c : Cfg) : LInv c (PollP.init c) [] := by
  have z : ∀ Q : Pc → Bool, Q .out = false → cnt c.threads Q (PollP.init c).pc = 0 := fun Q hQ => cnt_zero.2 fun _ _ => hQ
  refine ⟨fun t os h => (by cases h), ?_⟩
  unfold LPay
  rw [z tokAny rfl, z setting rfl]
  exact Nat.le_refl _

end Polling.PollP

namespace Polling.PollC
open PollB PollP Spec

/-- What a program sees of a step. -/
def handT : Act × Obs → Option HandT
  | (.tick dt, _) => some (.pass dt)
  | (.wait _ timeout, _) => some (.wait (timeout.map Duration.ns))
  | (.act _ .notifyCas, _) => some .notify
  | (_, (some (.waitOk _ n _), _)) => some (.back n)
  | _ => none

/-- The same, and whether the OS gave up. -/
def handL (x : Act × Obs) : Option HandL :=
  match handT x with
  | some e => some (.see e)
  | none => if x.2.2 then some .lapse else none

theorem handL_seen (l : List (Act × Obs)) : (l.filterMap handL).filterMap HandL.seen = l.filterMap handT := by
  induction l with
  | nil => rfl
  | cons x l ih =>
    rw [List.filterMap_cons, List.filterMap_cons]
    unfold handL
    cases h : handT x with
    | some e => simp only [h]; rw [List.filterMap_cons]; simp only [HandL.seen]; rw [← ih]; rfl
    | none =>
      simp only [h]
      cases x.2.2 <;> simp [HandL.seen] <;> exact ih

/-- `i32::MAX` milliseconds. -/
def most : Option Nat := some 2147483647000000

/-- The deadlines, against what was seen since the latest `wait` began. -/
structure Clk (s : S) (l : List HandT) : Prop where
  sp : spent l ≤ s.now
  dl : ∀ d, s.dl = some d → d ≤ unixMaxNs ∧ ∃ T, timeoutOf l = some T ∧ d + spent l = s.now + T
  rem : ∀ r, s.rem = some r → ∃ d, s.dl = some d ∧ d ≤ s.now + r.ns
  dl2 : ∀ d2, s.dl2 = some d2 → d2 ≤ unixMaxNs ∧ ∃ d, s.dl = some d ∧ d ≤ d2
  ms : 0 ≤ s.ms → s.now ≤ s.since + spent l ∧ ∃ d, s.dl = some d ∧ (d ≤ s.since + s.ms.toNat * 1000000 ∨ 2147483647 ≤ s.ms.toNat)

theorem Clk.over {s l} (h : Clk s l) (ho : overdue s = true) : timeOver most l = true := by
  unfold overdue at ho
  simp only [Bool.and_eq_true, decide_eq_true_eq] at ho
  obtain ⟨h0, h1⟩ := ho
  obtain ⟨hs, d, hd, hor⟩ := h.ms h0
  obtain ⟨_, T, hT, he⟩ := h.dl d hd
  unfold timeOver most
  rw [hT]
  simp only [Bool.or_eq_true, decide_eq_true_eq]
  rcases hor with h2 | h2
  · left; omega
  · right; omega

/-- The time computed for `poll()` reaches the deadline, or is as long as possible. -/
theorem pollMs_reaches {d now : Nat} (hd : d ≤ unixMaxNs) :
    d ≤ now + (pollTimeoutMs (some (saturatingSince d now))).toNat * 1000000 ∨ 2147483647 ≤ (pollTimeoutMs (some (saturatingSince d now))).toNat := by
  rw [pollMs_eq, EpollM.since_ns hd, Int.toNat_natCast]
  omega

theorem Clk.ofEq {s s' : S} {l} (h : Clk s l) (e1 : s'.now = s.now) (e2 : s'.dl = s.dl) (e3 : s'.rem = s.rem) (e4 : s'.dl2 = s.dl2)
    (e5 : s'.ms = s.ms) (e6 : s'.since = s.since) : Clk s' l := by
  obtain ⟨a, b, c, d, e⟩ := h
  exact ⟨by rw [e1]; exact a, by rw [e1, e2]; exact b, by rw [e1, e2, e3]; exact c, by rw [e2, e4]; exact d, by rw [e1, e2, e5, e6]; exact e⟩

/-- What is seen, other than time and new `wait`s, does not matter. -/
theorem Clk.see {s l e} (h : Clk s l) (h1 : timeoutOf (e :: l) = timeoutOf l) (h2 : Spec.spent (e :: l) = Spec.spent l) : Clk s (e :: l) := by
  obtain ⟨a, b, c, d, e⟩ := h
  exact ⟨by rw [h2]; exact a, by rw [h1, h2]; exact b, c, d, by rw [h2]; exact e⟩

theorem Clk.tick {s l} (h : Clk s l) (dt : Nat) : Clk { s with now := s.now + dt } (.pass dt :: l) := by
  have e : Spec.spent (.pass dt :: l) = Spec.spent l + dt := rfl
  have e' : timeoutOf (.pass dt :: l) = timeoutOf l := rfl
  refine ⟨?_, fun d hd => ?_, fun r hr => ?_, h.dl2, fun h0 => ?_⟩
  · rw [e]; have := h.sp; show _ ≤ s.now + dt; omega
  · obtain ⟨a, T, hT, he⟩ := h.dl d hd
    refine ⟨a, T, by rw [e']; exact hT, ?_⟩
    rw [e]; show _ = s.now + dt + T; omega
  · obtain ⟨d, hd, hle⟩ := h.rem r hr
    exact ⟨d, hd, by show _ ≤ s.now + dt + _; omega⟩
  · obtain ⟨a, b⟩ := h.ms h0
    exact ⟨by rw [e]; show s.now + dt ≤ s.since + _; omega, b⟩

theorem Clk.load {s l} (h : Clk s l) : Clk { s with ms := timeoutMs s, since := s.now } l := by
  refine ⟨h.sp, h.dl, h.rem, h.dl2, fun h0 => ⟨Nat.le_add_right _ _, ?_⟩⟩
  show ∃ d, s.dl = some d ∧ (d ≤ s.now + (timeoutMs s).toNat * 1000000 ∨ 2147483647 ≤ (timeoutMs s).toNat)
  have h0 : 0 ≤ timeoutMs s := h0
  unfold timeoutMs at *
  cases hd2 : s.dl2 with
  | none => rw [hd2] at h0; exact absurd h0 (by simp [pollTimeoutMs])
  | some d2 =>
    obtain ⟨hm, d, hd, hle⟩ := h.dl2 d2 hd2
    refine ⟨d, hd, ?_⟩
    simp only [Option.map_some]
    rcases pollMs_reaches (now := s.now) hm with h1 | h1
    · left; omega
    · right; exact h1

theorem add_max {m now d : Nat} {t : Duration} (h : instantCheckedAdd m now t = some d) : now + t.ns = d ∧ d ≤ m := by
  unfold instantCheckedAdd at h
  split at h <;> cases h
  exact ⟨rfl, by assumption⟩

/-- The machine without a clock runs. -/
theorem inner_eq {c s t a f lapse r} (h : inner c s t a f lapse = some r) :
    ∃ p o, PollP.step c s.p t a = some (p, o) ∧ r = (f { s with p }, (some o, lapse)) := by
  unfold inner at h
  rw [Option.map_eq_some_iff] at h
  obtain ⟨⟨p, o⟩, h1, h2⟩ := h
  exact ⟨p, o, h1, h2.symm⟩

/-- What happens in a step. -/
inductive Kind (c : Cfg) (s : S) : Act → S → Obs → Prop
  | tick (dt) : Kind c s (.tick dt) { s with now := s.now + dt } (none, false)
  | wait (t timeout p o) (h : PollP.step c s.p t (.waitBegin timeout.isSome) = some (p, o)) :
    Kind c s (.wait t timeout) { p, now := s.now, dl := timeout.bind (instantCheckedAdd unixMaxNs s.now), stage := .top, rem := none, dl2 := none, ms := -1, since := s.now } (some o, false)
  | remaining : Kind c s .remaining { s with rem := s.dl.map fun d => saturatingSince d s.now, stage := .left } (none, false)
  | deadline : Kind c s .deadline { s with dl2 := s.rem.bind (instantCheckedAdd unixMaxNs s.now), stage := .set } (none, false)
  | load (t p o) (h : PollP.step c s.p t .waitLoad = some (p, o)) :
    Kind c s (.act t .waitLoad) { s with p, ms := timeoutMs s, since := s.now } (some o, false)
  | other (t a p o st) (h : PollP.step c s.p t a = some (p, o)) (hw : ∀ b, a ≠ .waitBegin b) (hl : lapsing s.p a = true → overdue s = true)
      (hnl : a ≠ .waitLoad) :
    Kind c s (.act t a) { s with p, stage := st } (some o, lapsing s.p a)

theorem step_kind {c s a s' o} (h : step c s a = some (s', o)) : Kind c s a s' o := by
  cases a with
  | tick dt => cases h; exact .tick dt
  | wait t timeout => simp only [step] at h; obtain ⟨p, o, h1, h2⟩ := inner_eq h; cases h2; exact .wait t timeout p o h1
  | remaining =>
    simp only [step] at h
    split at h
    · cases h; exact .remaining
    · cases h
  | deadline =>
    simp only [step] at h
    split at h
    · cases h; exact .deadline
    · cases h
  | act t a =>
    cases a
    case waitBegin b => cases h
    case waitLock =>
      simp only [step] at h
      split at h
      · obtain ⟨p, o, h1, h2⟩ := inner_eq h; cases h2; exact .other t .waitLock p o s.stage h1 (by intro b e; cases e) (by intro e; cases e) nofun
      · cases h
    case waitLoad => simp only [step] at h; obtain ⟨p, o, h1, h2⟩ := inner_eq h; cases h2; exact .load t p o h1
    case waitFinish => simp only [step] at h; obtain ⟨p, o, h1, h2⟩ := inner_eq h; cases h2; exact .other t .waitFinish p o .top h1 (by intro b e; cases e) (by intro e; cases e) nofun
    case waitPoll os =>
      simp only [step] at h
      split at h
      · cases h
      · next hg =>
        obtain ⟨p, o, h1, h2⟩ := inner_eq h; cases h2
        refine .other t (.waitPoll os) p o s.stage h1 (by intro b e; cases e) (fun e => ?_) nofun
        have e : gaveUp s.p os = true := e
        rw [e] at hg
        simpa using hg
    all_goals
      simp only [step] at h; obtain ⟨p, o, h1, h2⟩ := inner_eq h; cases h2
      exact .other t _ p o s.stage h1 (by intro b e; cases e) (by intro e; cases e) nofun

theorem reach_inner {c P s l} (h : Runs (fun s => ∃ now, s = init c now) (step c) P s l) : ∃ tr, Reach c Any s.p tr := by
  induction h with
  | init hi => obtain ⟨now, rfl⟩ := hi; exact ⟨[], .init⟩
  | step _ _ hs ih =>
    obtain ⟨tr, ih⟩ := ih
    cases step_kind hs with
    | tick | remaining | deadline => exact ⟨tr, ih⟩
    | wait t timeout p o h => exact ⟨_, .step ih trivial h⟩
    | load t p o h => exact ⟨_, .step ih trivial h⟩
    | other t a p o st h => exact ⟨_, .step ih trivial h⟩

theorem evL_eq {c : Cfg} {p p' : PollP.S} {t a o} (hn : PollP.Next c p t a p' o) (hw : ∀ b, a ≠ .waitBegin b) :
    handL (.act t a, (some o, lapsing p a)) = evL p a o := by
  cases hn
  case waitBegin b _ _ => exact absurd rfl (hw b)
  case waitPollNote b os _ _ _ _ => rfl
  case waitPoll b os _ _ _ _ => rfl
  all_goals rfl

structure TInv (c : Cfg) (s : S) (l : List (Act × Obs)) : Prop where
  pay : LInv c s.p (l.filterMap handL)
  clk : Clk s (l.filterMap handT)
  fair : Fair most (l.filterMap handL)

theorem reach_timed {c P s l} (h : Runs (fun s => ∃ now, s = init c now) (step c) P s l) : TInv c s l := by
  induction h with
  | @init s hi =>
    obtain ⟨now, rfl⟩ := hi
    refine ⟨.init c, ⟨Nat.zero_le _, ?_, ?_, ?_, ?_⟩, .nil⟩
    · intro d h; cases h
    · intro d h; cases h
    · intro d h; cases h
    · intro h; exact absurd h (by simp [init])
  | @step s l a s' o hr _ hs ih =>
    obtain ⟨tr, hri⟩ := reach_inner hr
    have goal : LInv c s'.p ((handL (a, o)).toList ++ l.filterMap handL) ∧ Clk s' ((handT (a, o)).toList ++ l.filterMap handT) ∧
        Fair most ((handL (a, o)).toList ++ l.filterMap handL) := by
      cases step_kind hs with
      | tick dt => exact ⟨ih.pay.pass dt, ih.clk.tick dt, ih.fair.see⟩
      | remaining =>
        refine ⟨ih.pay, ⟨ih.clk.sp, ih.clk.dl, ?_, ih.clk.dl2, ih.clk.ms⟩, ih.fair⟩
        intro r hr
        dsimp only at hr ⊢
        cases hd : s.dl with
        | none => rw [hd] at hr; cases hr
        | some d =>
          rw [hd] at hr; cases hr
          refine ⟨d, rfl, ?_⟩
          rw [EpollM.since_ns (ih.clk.dl d hd).1]; omega
      | deadline =>
        refine ⟨ih.pay, ⟨ih.clk.sp, ih.clk.dl, ih.clk.rem, ?_, ih.clk.ms⟩, ih.fair⟩
        intro d2 h2
        dsimp only at h2 ⊢
        cases hrm : s.rem with
        | none => rw [hrm] at h2; cases h2
        | some r =>
          rw [hrm] at h2
          obtain ⟨e, hm⟩ := add_max h2
          obtain ⟨d, hd, hle⟩ := ih.clk.rem r hrm
          exact ⟨hm, d, hd, by omega⟩
      | wait t timeout p o hp =>
        obtain ⟨ht, hn⟩ := step_next hp
        refine ⟨ih.pay.begin hri ht hn _, ?_, ih.fair.see⟩
        refine ⟨Nat.zero_le _, ?_, (by intro r h; cases h), (by intro r h; cases h), fun h => absurd h (by simp)⟩
        intro d hd
        dsimp only at hd ⊢
        cases timeout with
        | none => cases hd
        | some T =>
          obtain ⟨e, hm⟩ := add_max hd
          exact ⟨hm, T.ns, rfl, by rw [← e]; rfl⟩
      | load t p o hp =>
        obtain ⟨ht, hn⟩ := step_next hp
        have hw : ∀ b, Act.waitLoad ≠ .waitBegin b := by intro b e; cases e
        have e := evL_eq hn hw
        have hpay := ih.pay.next hri ht hn hw
        cases hn <;> exact ⟨hpay, ih.clk.load.ofEq rfl rfl rfl rfl rfl rfl, ih.fair⟩
      | other t a p o st hp hw hl =>
        obtain ⟨ht, hn⟩ := step_next hp
        have e := evL_eq hn hw
        have hpay := ih.pay.next hri ht hn hw
        rw [← e] at hpay
        have hclk : Clk { s with p, stage := st } (l.filterMap handT) := ih.clk.ofEq rfl rfl rfl rfl rfl rfl
        refine ⟨hpay, ?_, ?_⟩
        · cases hT : handT (.act t a, (some o, lapsing s.p a)) with
          | none => exact hclk
          | some e =>
            have : e = .notify ∨ ∃ n, e = .back n := by
              cases hn <;> simp [handT] at hT <;> first | exact .inl hT.symm | exact .inr ⟨_, hT.symm⟩ | (cases hT)
            rcases this with rfl | ⟨n, rfl⟩
            · exact hclk.see rfl rfl
            · exact hclk.see rfl rfl
        · unfold handL
          cases hT : handT (.act t a, (some o, lapsing s.p a)) with
          | some e => exact ih.fair.see
          | none =>
            dsimp only
            cases hx : lapsing s.p a with
            | false => exact ih.fair
            | true =>
              refine .cons ih.fair fun _ => ?_
              show timeOver most ((l.filterMap handL).filterMap HandL.seen) = true
              rw [handL_seen]
              exact ih.clk.over (hl hx)
    have eL : ((a, o) :: l).filterMap handL = (handL (a, o)).toList ++ l.filterMap handL := by
      rw [List.filterMap_cons]; cases handL (a, o) <;> rfl
    refine ⟨by rw [eL]; exact goal.1, ?_, by rw [eL]; exact goal.2.2⟩
    rw [show (((a, o) :: l).filterMap handT) = (handT (a, o)).toList ++ l.filterMap handT from by
      rw [List.filterMap_cons]; cases handT (a, o) <;> rfl]
    exact goal.2.1

end Polling.PollC
