import Verif.Model.PollProto

/-! Counting threads, and the steps of the poll machine as a relation. -/

namespace Polling.PollP
open PollB PollFlags PollSpec

/-- Number of threads below `n` whose position satisfies `P`. -/
def cnt : Nat → (Pc → Bool) → (Tid → Pc) → Nat
  | 0, _, _ => 0
  | n + 1, P, pc => cnt n P pc + (P (pc n)).toNat

theorem cnt_congr {n : Nat} {P Q : Pc → Bool} {pc pc' : Tid → Pc} (h : ∀ t, t < n → P (pc t) = Q (pc' t)) :
    cnt n P pc = cnt n Q pc' := by
  induction n with
  | zero => rfl
  | succ n ih => simp only [cnt]; rw [ih fun t ht => h t (by omega), h n (by omega)]

theorem cnt_upd {n : Nat} (P : Pc → Bool) (pc : Tid → Pc) {t : Tid} (ht : t < n) (p : Pc) :
    cnt n P (upd pc t p) + (P (pc t)).toNat = cnt n P pc + (P p).toNat := by
  induction n with
  | zero => exact absurd ht (Nat.not_lt_zero _)
  | succ n ih =>
    simp only [cnt]
    have ht' : (t : Nat) < n + 1 := ht
    by_cases h : t = n
    · subst h
      have : cnt t P (upd pc t p) = cnt t P pc := cnt_congr fun u hu => by simp [upd, Nat.ne_of_lt hu]
      simp [this, upd]; omega
    · have h1 := ih (Nat.lt_of_le_of_ne (Nat.le_of_lt_succ ht') h)
      have : upd pc t p n = pc n := by simp [upd, Ne.symm h]
      rw [this]; omega

theorem cnt_wake {n : Nat} {P : Pc → Bool} (hP : ∀ b, P (.wSleep b) = P (.wRelock b)) (pc : Tid → Pc) :
    cnt n P (wake pc) = cnt n P pc := by
  apply cnt_congr
  intro t _
  unfold wake
  split
  · next h => rw [h, hP]
  · rfl

theorem cnt_pos {n : Nat} {P : Pc → Bool} {pc : Tid → Pc} : 0 < cnt n P pc ↔ ∃ t, t < n ∧ P (pc t) = true := by
  induction n with
  | zero => simp [cnt]
  | succ n ih =>
    simp only [cnt]
    constructor
    · intro h
      by_cases hp : P (pc n) = true
      · exact ⟨n, by omega, hp⟩
      · simp only [Bool.not_eq_true] at hp
        rw [hp] at h
        obtain ⟨t, ht, h'⟩ := ih.1 (by simpa using h)
        exact ⟨t, by omega, h'⟩
    · rintro ⟨t, ht, h'⟩
      by_cases h : t = n
      · subst h; rw [h']; simp
      · have := ih.2 ⟨t, by omega, h'⟩; omega

theorem cnt_pos_of {n : Nat} {P : Pc → Bool} {pc : Tid → Pc} {t : Tid} (ht : t < n) (h : P (pc t) = true) : 0 < cnt n P pc :=
  cnt_pos.2 ⟨t, ht, h⟩

theorem cnt_zero {n : Nat} {P : Pc → Bool} {pc : Tid → Pc} : cnt n P pc = 0 ↔ ∀ t, t < n → P (pc t) = false := by
  constructor
  · intro h t ht
    cases hp : P (pc t) with
    | false => rfl
    | true => have := cnt_pos_of ht hp; omega
  · intro h
    by_cases h0 : 0 < cnt n P pc
    · obtain ⟨t, ht, hp⟩ := cnt_pos.1 h0; rw [h t ht] at hp; cases hp
    · omega

theorem cnt_le (n : Nat) (P : Pc → Bool) (pc : Tid → Pc) : cnt n P pc ≤ n := by
  induction n with
  | zero => exact Nat.le_refl _
  | succ n ih => simp only [cnt]; have : (P (pc n)).toNat ≤ 1 := Bool.toNat_le _; omega

theorem cnt_mono {n : Nat} {P Q : Pc → Bool} (h : ∀ p, P p = true → Q p = true) (pc : Tid → Pc) : cnt n P pc ≤ cnt n Q pc := by
  induction n with
  | zero => exact Nat.le_refl _
  | succ n ih =>
    simp only [cnt]
    have : (P (pc n)).toNat ≤ (Q (pc n)).toNat := by
      cases hp : P (pc n) with
      | false => simp
      | true => rw [h _ hp]; simp
    omega

theorem cnt_or {n : Nat} {P Q : Pc → Bool} (h : ∀ p, ¬ (P p = true ∧ Q p = true)) (pc : Tid → Pc) :
    cnt n (fun p => P p || Q p) pc = cnt n P pc + cnt n Q pc := by
  induction n with
  | zero => rfl
  | succ n ih =>
    simp only [cnt]
    have := h (pc n)
    rw [ih]
    cases hp : P (pc n) <;> cases hq : Q (pc n) <;> simp_all <;> omega

/-- The steps as a relation, one constructor per outcome. -/
inductive Next (c : Cfg) (s : S) (t : Tid) : Act → S → PObs → Prop
  | notifyAtOnce (h : s.pc t = .out) (hn : s.libNotified = true) : Next c s t .notifyCas s (.notifiedAtOnce t)
  | notifyCas (h : s.pc t = .out) (hn : s.libNotified = false) :
    Next c s t .notifyCas { s with libNotified := true, pc := upd s.pc t .nSwap } (.notifyBegin t)
  | notifySwapSet (h : s.pc t = .nSwap) (hn : s.notified = true) :
    Next c s t .notifySwap { s with pc := upd s.pc t .out } (.notified t)
  | notifySwap (h : s.pc t = .nSwap) (hn : s.notified = false) :
    Next c s t .notifySwap { s with notified := true, pc := upd s.pc t .nWrite } .tau
  | notifyWrite (h : s.pc t = .nWrite) :
    Next c s t (.notifyWrite true) { s with chan := s.chan + 1, pc := upd s.pc t .nCv } .tau
  | notifyWriteFail (h : s.pc t = .nWrite) :
    Next c s t (.notifyWrite false) { s with pc := upd s.pc t .out } (.notifyErr t)
  | notifyCv (h : s.pc t = .nCv) : Next c s t .notifyCv { s with pc := wake (upd s.pc t .out) } (.notified t)
  | callBegin (op) (h : s.pc t = .out) (ha : acceptable c.n op = true) :
    Next c s t (.callBegin op) { s with ops := s.ops + 1, pc := upd s.pc t (.mWrite op) } (.callBegin t op)
  | callWrite (op) (h : s.pc t = .mWrite op) :
    Next c s t (.callWrite true) { s with chan := s.chan + 1, pc := upd s.pc t (.mLock op true) } .tau
  | callWriteFail (op) (h : s.pc t = .mWrite op) :
    Next c s t (.callWrite false) { s with pc := upd s.pc t (.mLock op false) } .tau
  | callLock (op) (h : s.pc t = .mLock op true) (hm : s.mtx = none) :
    Next c s t .callLock { s with mtx := some t, pc := upd s.pc t (.mPop op) } .tau
  | callLockUnsent (op) (h : s.pc t = .mLock op false) (hm : s.mtx = none) :
    Next c s t .callLock { s with mtx := some t, pc := upd s.pc t (.mApply op) } .tau
  | callPop (op) (h : s.pc t = .mPop op) :
    Next c s t .callPop { s with chan := (pop c.chan s.chan).2, pc := upd s.pc t (.mApply op) } .tau
  | callApply (op r tbl) (h : s.pc t = .mApply op) (hc : call c.n s.tbl op = some (r, tbl)) :
    Next c s t .callApply { s with tbl, pc := upd s.pc t (.mDec r) } (.applied t op r)
  | callDecLast (r) (h : s.pc t = .mDec r) (ho : s.ops = 1) :
    Next c s t .callDec { s with ops := s.ops - 1, pc := upd s.pc t (.mCv r) } .tau
  | callDec (r) (h : s.pc t = .mDec r) (ho : s.ops ≠ 1) :
    Next c s t .callDec { s with ops := s.ops - 1, pc := upd s.pc t (.mUnlock r) } .tau
  | callCv (r) (h : s.pc t = .mCv r) : Next c s t .callCv { s with pc := wake (upd s.pc t (.mUnlock r)) } .tau
  | callUnlock (r) (h : s.pc t = .mUnlock r) :
    Next c s t .callUnlock { s with mtx := none, pc := upd s.pc t .out } (.callEnd t r)
  | waitBegin (b) (h : s.pc t = .out) (hl : s.lib = none) :
    Next c s t (.waitBegin b) { s with lib := some t, pc := upd s.pc t (.wLock b) } (.waitBegin t)
  | waitBusy (h : s.pc t = .out) (hl : s.lib ≠ none) : Next c s t .waitBusy s (.waitBusy t)
  | waitLock (b) (h : s.pc t = .wLock b) (hm : s.mtx = none) :
    Next c s t .waitLock { s with mtx := some t, pc := upd s.pc t (.wSwap b) } .tau
  | waitSwapSet (b) (h : s.pc t = .wSwap b) (hn : s.notified = true) :
    Next c s t .waitSwap { s with notified := false, pc := upd s.pc t (.wPop b) } .tau
  | waitSwap (b) (h : s.pc t = .wSwap b) (hn : s.notified = false) :
    Next c s t .waitSwap { s with notified := false, pc := upd s.pc t (.wLoad b) } .tau
  | waitPop (b) (h : s.pc t = .wPop b) (hp : (pop c.chan s.chan).1 = true) :
    Next c s t .waitPop { s with chan := (pop c.chan s.chan).2, pc := upd s.pc t (.wUnlock b (.ok [])) } .tau
  | waitPopFail (b) (h : s.pc t = .wPop b) (hp : (pop c.chan s.chan).1 = false) :
    Next c s t .waitPop { s with chan := (pop c.chan s.chan).2, pc := upd s.pc t (.wUnlock b (.err .wouldBlock)) } .tau
  | waitLoad (b) (h : s.pc t = .wLoad b) (ho : s.ops = 0) :
    Next c s t .waitLoad { s with pc := upd s.pc t (.wPoll b) } (.polled t s.tbl.pollFds)
  | waitLoadOps (b) (h : s.pc t = .wLoad b) (ho : s.ops ≠ 0) : Next c s t .waitLoad { s with pc := upd s.pc t (.wPark b) } .tau
  | waitPark (b) (h : s.pc t = .wPark b) : Next c s t .waitPark { s with mtx := none, pc := upd s.pc t (.wSleep b) } .tau
  | waitSpurious (b) (h : s.pc t = .wSleep b) : Next c s t .waitSpurious { s with pc := upd s.pc t (.wRelock b) } .tau
  | waitRelock (b) (h : s.pc t = .wRelock b) (hm : s.mtx = none) :
    Next c s t .waitRelock { s with mtx := some t, pc := upd s.pc t (.wSwap b) } .tau
  | waitPollNote (b os) (h : s.pc t = .wPoll b) (hos : os c.n.readFd c.n.flags ≠ 0#16) (hch : s.chan > 0)
      (hr : (osPoll os s.tbl.pollFds).2 > 0 ∨ b = true) :
    Next c s t (.waitPoll os) { s with pc := upd s.pc t (.wPopAll b os) } .tau
  | waitPoll (b os) (h : s.pc t = .wPoll b) (hos : os c.n.readFd c.n.flags = 0#16) (hch : s.chan = 0)
      (hr : (osPoll os s.tbl.pollFds).2 > 0 ∨ b = true) :
    Next c s t (.waitPoll os) { s with pc := upd s.pc t (.wSwap2 b os) } .tau
  | waitPollFail (b e) (h : s.pc t = .wPoll b) :
    Next c s t (.waitPollFail e) { s with pc := upd s.pc t (.wUnlock b (.err e)) } (.pollFailed t)
  | waitPopAllMore (b os) (h : s.pc t = .wPopAll b os) (hp : (popAll c.chan s.chan).1 = true) :
    Next c s t .waitPopAll { s with chan := (popAll c.chan s.chan).2, pc := upd s.pc t (.wPopAll b os) } .tau
  | waitPopAll (b os) (h : s.pc t = .wPopAll b os) (hp : (popAll c.chan s.chan).1 = false) :
    Next c s t .waitPopAll { s with chan := (popAll c.chan s.chan).2, pc := upd s.pc t (.wSwap2 b os) } .tau
  | waitAgain (b os order tbl) (h : s.pc t = .wSwap2 b os) (ho : order.isPerm (s.tbl.pollFds.tail.map PollFd.fd) = true)
      (hr : round os order s.notified s.tbl = some (tbl, .again)) :
    Next c s t (.waitSwap2 order) { s with tbl, notified := false, pc := upd s.pc t (.wSwap b) }
      (.round t os order s.notified .again)
  | waitDone (b os order tbl evs) (h : s.pc t = .wSwap2 b os) (ho : order.isPerm (s.tbl.pollFds.tail.map PollFd.fd) = true)
      (hr : round os order s.notified s.tbl = some (tbl, .done evs)) :
    Next c s t (.waitSwap2 order) { s with tbl, notified := false, pc := upd s.pc t (.wUnlock b (.ok evs)) }
      (.round t os order s.notified (.events evs))
  | waitUnlock (b r) (h : s.pc t = .wUnlock b r) :
    Next c s t .waitUnlock { s with mtx := none, pc := upd s.pc t (.wFinish b r) } .tau
  | waitOk (b evs) (h : s.pc t = .wFinish b (.ok evs)) :
    Next c s t .waitFinish { s with libNotified := false, lib := none, pc := upd s.pc t .out }
      (.waitOk t (visible evs).length (visible evs))
  | waitRetry (b) (h : s.pc t = .wFinish b (.err .interrupted)) :
    Next c s t .waitFinish { s with pc := upd s.pc t (.wLock b) } .tau
  | waitErr (b e) (h : s.pc t = .wFinish b (.err e)) (he : e ≠ .interrupted) :
    Next c s t .waitFinish { s with lib := none, pc := upd s.pc t .out } (.waitErr t e)

theorem step_next {c : Cfg} {s s' : S} {t : Tid} {a : Act} {o : PObs} (h : step c s t a = some (s', o)) :
    t < c.threads ∧ Next c s t a s' o := by
  unfold step at h
  split at h
  · next ht =>
    refine ⟨ht, ?_⟩
    split at h
    · next hp =>
      split at h
      · next hn => cases h; exact .notifyAtOnce hp hn
      · next hn => cases h; exact .notifyCas hp (by simpa using hn)
    · next hp =>
      split at h
      · next hn => cases h; exact .notifySwapSet hp hn
      · next hn => cases h; exact .notifySwap hp (by simpa using hn)
    · next ok hp =>
      split at h
      · next hn => cases h; subst hn; exact .notifyWrite hp
      · next hn => cases h; have : ok = false := by simpa using hn
                   subst this; exact .notifyWriteFail hp
    · next hp => cases h; exact .notifyCv hp
    · next op hp =>
      split at h
      · next hn => cases h; exact .callBegin op hp hn
      · cases h
    · next ok op hp =>
      split at h
      · next hn => cases h; subst hn; exact .callWrite op hp
      · next hn => cases h; have : ok = false := by simpa using hn
                   subst this; exact .callWriteFail op hp
    · next op sent hp =>
      split at h
      · next hn =>
        cases h
        cases sent with
        | true => exact .callLock op hp hn
        | false => exact .callLockUnsent op hp hn
      · cases h
    · next op hp => cases h; exact .callPop op hp
    · next op hp =>
      split at h
      · cases h
      · next r tbl hc => cases h; exact .callApply op r tbl hp hc
    · next r hp =>
      cases h
      split
      · next ho => exact .callDecLast r hp ho
      · next ho => exact .callDec r hp ho
    · next r hp => cases h; exact .callCv r hp
    · next r hp => cases h; exact .callUnlock r hp
    · next b hp =>
      split at h
      · next hl => cases h; exact .waitBegin b hp hl
      · cases h
    · next hp =>
      split at h
      · cases h
      · next hl => cases h; exact .waitBusy hp hl
    · next b hp =>
      split at h
      · next hm => cases h; exact .waitLock b hp hm
      · cases h
    · next b hp =>
      cases h
      split
      · next hn => exact .waitSwapSet b hp hn
      · next hn => exact .waitSwap b hp (by simpa using hn)
    · next b hp =>
      cases h
      split
      · next hn => exact .waitPop b hp hn
      · next hn => exact .waitPopFail b hp (by simpa using hn)
    · next b hp =>
      split at h
      · next ho => cases h; exact .waitLoad b hp ho
      · next ho => cases h; exact .waitLoadOps b hp ho
    · next b hp => cases h; exact .waitPark b hp
    · next b hp => cases h; exact .waitSpurious b hp
    · next b hp =>
      split at h
      · next hm => cases h; exact .waitRelock b hp hm
      · cases h
    · next os b hp =>
      split at h
      · next hc =>
        cases h
        split
        · next hch => exact .waitPollNote b os hp (by simpa [hch] using hc.1) hch hc.2
        · next hch => exact .waitPoll b os hp (by simpa [hch] using hc.1) (by omega) hc.2
      · cases h
    · next e b hp => cases h; exact .waitPollFail b e hp
    · next b os hp =>
      cases h
      split
      · next hn => exact .waitPopAllMore b os hp hn
      · next hn => exact .waitPopAll b os hp (by simpa using hn)
    · next order b os hp =>
      split at h
      · next ho =>
        split at h
        · cases h
        · next tbl hr => cases h; exact .waitAgain b os order tbl hp ho hr
        · next tbl evs hr => cases h; exact .waitDone b os order tbl evs hp ho hr
      · cases h
    · next b r hp => cases h; exact .waitUnlock b r hp
    · next b r hp =>
      split at h
      · next evs => cases h; exact .waitOk b evs hp
      · next e =>
        split at h
        · next he => cases h; subst he; exact .waitRetry b hp
        · next he => cases h; exact .waitErr b e hp he
    · cases h
  · cases h

end Polling.PollP
