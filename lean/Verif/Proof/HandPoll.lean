import Verif.Spec.Hand
import Verif.Proof.PollReach
import Verif.Proof.PollRound

/-! Empty-handed waits are paid for by notifications: poll(2). -/

namespace Polling.PollP
open PollB PollFlags PollSpec Spec

/-- What is seen of a step. -/
def handOf : (Tid × Act) × PObs → Option Hand
  | ((_, .notifyCas), _) => some .notify
  | ((_, .waitBegin b), _) => some (.wait b)
  | (_, .waitOk _ n _) => some (.back n)
  | _ => none

theorem runs_reach {c P s l} (h : Runs (fun s => s = init c) (fun s (a : Tid × Act) => step c s a.1 a.2) P s l) : Reach c Any s (l.map Prod.snd) := by
  induction h with
  | init hi => subst hi; exact .init
  | step _ _ hs ih => exact .step ih trivial hs

/-! ### Keys -/

/-- The call of a thread that will change the table. -/
def opOf : Pc → Option Op
  | .mWrite op | .mLock op _ | .mPop op | .mApply op => some op
  | _ => none

def keyOk : Op → Prop
  | .add _ ev _ | .modify _ ev _ => ev.key ≠ NOTIFY_KEY
  | .delete _ => True

theorem keyOk_of {n op} (h : acceptable n op = true) : keyOk op := by
  cases op with
  | add _ ev _ => simp [acceptable] at h; exact h.1
  | modify _ ev _ => simp [acceptable] at h; exact h.1
  | delete _ => trivial

def Plain (m : Map) : Prop := ∀ fd r, m fd = some r → r.key ≠ NOTIFY_KEY

theorem Plain.set {m : Map} (h : Plain m) (fd : Fd) {r : Option Reg} (hr : ∀ x, r = some x → x.key ≠ NOTIFY_KEY) : Plain (m.set fd r) := by
  intro x y hy
  unfold Map.set at hy
  split at hy
  · exact hr y hy
  · exact h x y hy

theorem plain_apply {m : Map} {i} (h : Plain m) {op} (ho : keyOk op) : Plain (applyAsCoded i m op).2 := by
  cases op with
  | add fd ev mode =>
    simp only [applyAsCoded, apply]
    repeat' split
    all_goals first | exact h | exact h.set fd (by intro x hx; cases hx; exact ho)
  | modify fd ev mode =>
    simp only [applyAsCoded]
    repeat' split
    all_goals first | exact h | exact h.set fd (by intro x hx; cases hx; exact ho)
  | delete fd =>
    simp only [applyAsCoded, apply]
    repeat' split
    all_goals first | exact h | exact h.set fd (by intro x hx; cases hx)

theorem plain_after {m : Map} (h : Plain m) (os) : Plain (afterWait os m) := by
  intro fd r hr
  unfold afterWait at hr
  rw [Option.map_eq_some_iff] at hr
  obtain ⟨r0, h0, rfl⟩ := hr
  have := h fd r0 h0
  split <;> exact this

theorem wake_opOf (pc : Tid → Pc) (u : Tid) : opOf (wake pc u) = opOf (pc u) := by
  unfold wake; split
  · next h => rw [h]; rfl
  · rfl

theorem next_plain {c : Cfg} {s s' : S} {t : Tid} {a : Act} {o : PObs} {tr} (hn : Next c s t a s' o)
    (ih1 : ∀ t op, opOf (s.pc t) = some op → keyOk op) (ih2 : Plain (mapOf c tr)) :
    (∀ t op, opOf (s'.pc t) = some op → keyOk op) ∧ Plain (mapOf c (o :: tr)) := by
  have hself : ∀ p, (∀ op, opOf p = some op → keyOk op) → ∀ u op, opOf (upd s.pc t p u) = some op → keyOk op := by
    intro p hp u op hu
    unfold upd at hu
    split at hu
    · exact hp op hu
    · exact ih1 u op hu
  have hold := ih1 t
  constructor
  · cases hn
    case notifyAtOnce | waitBusy => exact ih1
    case notifyCv | callCv => intro u op hu; rw [wake_opOf] at hu; exact hself _ (by intro op h; cases h) u op hu
    case callBegin op _ ha => exact hself _ (by intro op h; cases h; exact keyOk_of ha)
    case callWrite h => exact hself _ (by intro op h'; rw [h] at hold; exact hold op h')
    case callWriteFail h => exact hself _ (by intro op h'; rw [h] at hold; exact hold op h')
    case callLock h _ => exact hself _ (by intro op h'; rw [h] at hold; exact hold op h')
    case callLockUnsent h _ => exact hself _ (by intro op h'; rw [h] at hold; exact hold op h')
    case callPop h => exact hself _ (by intro op h'; rw [h] at hold; exact hold op h')
    all_goals exact hself _ (by intro op h; cases h)
  · cases hn
    case callApply op r tbl h hc =>
      show Plain (mapAfter applyAsCoded c.n.spec (fun _ => none) (steps tr ++ [.call op]))
      rw [mapAfter_append]
      exact plain_apply ih2 (hold op (by rw [h]; rfl))
    case waitAgain b os order tbl h ho hrd =>
      show Plain (mapAfter applyAsCoded c.n.spec (fun _ => none) (steps tr ++ [.round os order s.notified]))
      rw [mapAfter_append]
      simp only [mapAfter, stepSpec]
      split
      · exact ih2
      · exact plain_after ih2 os
    case waitDone b os order tbl evs h ho hrd =>
      show Plain (mapAfter applyAsCoded c.n.spec (fun _ => none) (steps tr ++ [.round os order s.notified]))
      rw [mapAfter_append]
      simp only [mapAfter, stepSpec]
      split
      · exact ih2
      · exact plain_after ih2 os
    all_goals exact ih2

theorem reach_plain_map {c P s tr} (h : Reach c P s tr) :
    (∀ t op, opOf (s.pc t) = some op → keyOk op) ∧ Plain (mapOf c tr) := by
  induction h with
  | init => exact ⟨fun t op h => (by cases h), fun fd r h => (by cases h)⟩
  | step _ _ hs ih => exact next_plain (step_next hs).2 ih.1 ih.2

/-! ### `poll()` without a time limit returned because something is ready -/

def osOf' : Pc → Option (Fd → Flags → Flags)
  | .wPopAll false os | .wSwap2 false os => some os
  | _ => none

theorem wake_osOf' (pc : Tid → Pc) (u : Tid) : osOf' (wake pc u) = osOf' (pc u) := by
  unfold wake; split
  · next h => rw [h]; rfl
  · rfl

theorem osOf'_holds {p os} (h : osOf' p = some os) : holds p = true := by
  unfold osOf' at h; split at h <;> first | rfl | cases h

theorem next_ready {c : Cfg} {s s' : S} {t : Tid} {a : Act} {o : PObs} (hI : I c s) (hn : Next c s t a s' o)
    (ih : ∀ t os, osOf' (s.pc t) = some os → (osPoll os s.tbl.pollFds).2 > 0) :
    ∀ t os, osOf' (s'.pc t) = some os → (osPoll os s'.tbl.pollFds).2 > 0 := by
  have hself : ∀ p, (∀ os, osOf' p = some os → (osPoll os s.tbl.pollFds).2 > 0) →
      ∀ u os, osOf' (upd s.pc t p u) = some os → (osPoll os s.tbl.pollFds).2 > 0 := by
    intro p hp u os hu
    unfold upd at hu
    split at hu
    · exact hp os hu
    · exact ih u os hu
  have alone : ∀ p tbl, holds (s.pc t) = true → osOf' p = none → ∀ u os, osOf' (upd s.pc t p u) = some os → (osPoll os (tbl : Fds).pollFds).2 > 0 := by
    intro p tbl ht hp u os hu
    unfold upd at hu
    split at hu
    · rw [hp] at hu; cases hu
    · next hne =>
      exfalso; apply hne
      have a1 := (hI.mtx u).1 (osOf'_holds hu)
      have a2 := (hI.mtx t).1 ht
      rw [a1] at a2; exact Option.some.inj a2
  have hold := ih t
  cases hn
  case notifyAtOnce | waitBusy => exact ih
  case notifyCv | callCv => intro u os hu; rw [wake_osOf'] at hu; exact hself _ (by intro os h; cases h) u os hu
  case callApply h _ => exact alone _ _ (by rw [h]; rfl) rfl
  case waitAgain h _ _ => exact alone _ _ (by rw [h]; rfl) rfl
  case waitDone h _ _ => exact alone _ _ (by rw [h]; rfl) rfl
  case waitPollNote b os h _ _ hrd => exact hself _ (by intro os' h'; cases b <;> cases h'; simpa using hrd)
  case waitPoll b os h _ _ hrd => exact hself _ (by intro os' h'; cases b <;> cases h'; simpa using hrd)
  case waitPopAllMore h _ => exact hself _ (by intro os h'; rw [h] at hold; exact hold os h')
  case waitPopAll b os h _ => exact hself _ (by intro os h'; rw [h] at hold; cases b <;> exact hold os h')
  all_goals exact hself _ (by intro os h; cases h)

theorem reach_ready {c P s tr} (h : Reach c P s tr) : ∀ t os, osOf' (s.pc t) = some os → (osPoll os s.tbl.pollFds).2 > 0 := by
  induction h with
  | init => intro t os h; cases h
  | step hr _ hs ih => exact next_ready (reach_I hr) (step_next hs).2 ih

/-- A round that finds nothing and does not go on, though `poll()` found something, was notified. -/
theorem done_empty_of {c P s tr os order tbl evs} (h : Reach c P s tr) (hready : (osPoll os s.tbl.pollFds).2 > 0)
    (ho : order.isPerm (s.tbl.pollFds.tail.map PollFd.fd) = true) (hr : round os order s.notified s.tbl = some (tbl, .done evs))
    (hv : visible evs = []) : s.notified = true := by
  have hT := reach_T h
  have hl := lists_of_perm hT.inv hT.rel ho
  have hen := enumerates_of hT.rel hl
  rw [osPoll_count hT.inv hT.rel os order hen] at hready
  obtain ⟨fds', _, _, he⟩ := round_spec hT.inv hT.rel os order hen s.notified
  rw [hr] at he
  simp only [Option.some.injEq, Prod.mk.injEq] at he
  have he := he.2
  cases hn : s.notified with
  | true => rfl
  | false =>
    exfalso
    rw [hn] at he
    split at he
    · cases he
    · next hc =>
      cases he
      -- some registered descriptor has a result
      have hex : ∃ fd ∈ order, result os (mapOf c tr) fd ≠ 0#16 := by
        apply Classical.byContradiction
        intro hno
        have hall : ∀ fd ∈ order, result os (mapOf c tr) fd = 0#16 :=
          fun fd hfd => Classical.byContradiction fun hx => hno ⟨fd, hfd, hx⟩
        have hz : (order.filter fun fd => result os (mapOf c tr) fd != 0#16).length = 0 := by
          rw [List.length_eq_zero_iff, List.filter_eq_nil_iff]
          intro fd hfd; simp [hall fd hfd]
        rw [hz] at hready
        apply hc
        refine ⟨rfl, ?_, hall⟩
        intro h0; rw [if_neg (by simp [h0])] at hready; omega
      obtain ⟨fd, hfd, hres⟩ := hex
      unfold result at hres
      cases hm : mapOf c tr fd with
      | none => rw [hm] at hres; exact hres rfl
      | some r =>
        rw [hm] at hres
        have hk := (reach_plain_map h).2 fd r hm
        have hin : r.report (os fd r.ask) ∈ waitEvents os (mapOf c tr) order := by
          unfold waitEvents
          rw [List.mem_filterMap]
          exact ⟨fd, hfd, by rw [hm]; simp [hres]⟩
        have : r.report (os fd r.ask) ∈ visible (waitEvents os (mapOf c tr) order) :=
          List.mem_filter.2 ⟨hin, by simpa [Reg.report] using hk⟩
        rw [hv] at this; cases this

/-- A round of a `wait` without a time limit that finds nothing and does not go on was notified. -/
theorem done_empty {c P s tr t os order tbl evs} (h : Reach c P s tr) (hp : s.pc t = .wSwap2 false os)
    (ho : order.isPerm (s.tbl.pollFds.tail.map PollFd.fd) = true) (hr : round os order s.notified s.tbl = some (tbl, .done evs))
    (hv : visible evs = []) : s.notified = true :=
  done_empty_of h (reach_ready h t os (by rw [hp]; rfl)) ho hr hv

/-! ### Payment -/

/-- A notification was taken by a `wait` without a time limit. -/
def tok : Pc → Bool
  | .wPop false => true
  | .wUnlock false (.ok evs) | .wFinish false (.ok evs) => (visible evs).isEmpty
  | _ => false

/-- About to set the flag. -/
def setting : Pc → Bool
  | .nSwap => true
  | _ => false

/-- Whether a `wait` has a time limit. -/
def timedOf : Pc → Option Bool
  | .wLock b | .wSwap b | .wPop b | .wLoad b | .wPark b | .wSleep b | .wRelock b | .wPoll b | .wPopAll b _ | .wSwap2 b _
  | .wUnlock b _ | .wFinish b _ => some b
  | _ => none

theorem wake_timedOf (pc : Tid → Pc) (u : Tid) : timedOf (wake pc u) = timedOf (pc u) := by
  unfold wake; split
  · next h => rw [h]; rfl
  · rfl

theorem timedOf_inWait {p b} (h : timedOf p = some b) : inWait p = true := by
  cases p <;> first | rfl | cases h

structure HInv (c : Cfg) (s : S) (l : List Hand) : Prop where
  timed : ∀ t b, timedOf (s.pc t) = some b → limited l = b
  pay : emptyBacks l + cnt c.threads tok s.pc + s.notified.toNat + cnt c.threads setting s.pc ≤ notifies l

/-- A thread moves, nothing is seen. -/
theorem HInv.move {c s s' t l p0} (ht : t < c.threads) (h : HInv c s l) (h0 : s.pc t = p0) (p1 : Pc)
    (hpc : s'.pc = upd s.pc t p1 ∨ s'.pc = wake (upd s.pc t p1))
    (htm : ∀ b, timedOf p1 = some b → timedOf p0 = some b)
    (hpay : (tok p1).toNat + s'.notified.toNat + (setting p1).toNat ≤ (tok p0).toNat + s.notified.toNat + (setting p0).toNat) : HInv c s' l := by
  have w1 : cnt c.threads tok s'.pc = cnt c.threads tok (upd s.pc t p1) := by
    rcases hpc with e | e
    · rw [e]
    · rw [e]; exact cnt_wake (fun _ => rfl) _
  have w2 : cnt c.threads setting s'.pc = cnt c.threads setting (upd s.pc t p1) := by
    rcases hpc with e | e
    · rw [e]
    · rw [e]; exact cnt_wake (fun _ => rfl) _
  have u1 := cnt_upd tok s.pc ht p1
  have u2 := cnt_upd setting s.pc ht p1
  rw [h0] at u1 u2
  have hp := h.pay
  refine ⟨?_, by rw [w1, w2]; omega⟩
  intro u b hu
  have hu' : timedOf (upd s.pc t p1 u) = some b := by
    rcases hpc with e | e
    · rw [e] at hu; exact hu
    · rw [e, wake_timedOf] at hu; exact hu
  unfold upd at hu'
  split at hu'
  · exact h.timed t b (by rw [h0]; exact htm b hu')
  · exact h.timed u b hu'

theorem HInv.next {c P s s' t a o tr l} (hr : Reach c P s tr) (ht : t < c.threads) (hn : Next c s t a s' o) (h : HInv c s l) :
    HInv c s' ((handOf ((t, a), o)).toList ++ l) := by
  have hI := reach_I hr
  have hp := h.pay
  have e1 : emptyBacks (.notify :: l) = emptyBacks l := rfl
  have e2 : notifies (.notify :: l) = notifies l + 1 := by simp [notifies]
  cases hn
  case notifyAtOnce hp1 hn =>
    exact ⟨h.timed, by simp only [handOf, Option.toList, List.cons_append, List.nil_append, e1, e2]; omega⟩
  case notifyCas hp1 hn =>
    have u1 := cnt_upd tok s.pc ht .nSwap
    have u2 := cnt_upd setting s.pc ht .nSwap
    simp only [hp1, tok, setting, Bool.toNat_true, Bool.toNat_false] at u1 u2
    refine ⟨?_, by simp only [handOf, Option.toList, List.cons_append, List.nil_append, e1, e2]; omega⟩
    intro u b hu
    simp only [upd] at hu
    split at hu
    · cases hu
    · exact h.timed u b hu
  case waitBegin b hp1 hl =>
    have u1 := cnt_upd tok s.pc ht (.wLock b)
    have u2 := cnt_upd setting s.pc ht (.wLock b)
    simp only [hp1, tok, setting, Bool.toNat_false] at u1 u2
    refine ⟨?_, ?_⟩
    · intro u b' hu
      simp only [upd] at hu
      split at hu
      · exact Option.some.inj hu
      · have := (hI.lib u).1 (timedOf_inWait hu)
        rw [hl] at this; cases this
    · have e3 : notifies (.wait b :: l) = notifies l := by simp [notifies]
      show emptyBacks l + cnt c.threads tok (upd s.pc t (.wLock b)) + s.notified.toNat + cnt c.threads setting (upd s.pc t (.wLock b)) ≤ notifies (.wait b :: l)
      rw [e3]; omega
  case waitBusy => exact h
  case waitOk b evs hp1 =>
    have u1 := cnt_upd tok s.pc ht .out
    have u2 := cnt_upd setting s.pc ht .out
    have hl : limited l = b := h.timed t b (by rw [hp1]; rfl)
    simp only [hp1, setting, Bool.toNat_false] at u2
    rw [hp1] at u1
    have e3 : notifies (.back (visible evs).length :: l) = notifies l := by simp [notifies]
    refine ⟨?_, ?_⟩
    · intro u b' hu
      simp only [upd] at hu
      split at hu
      · cases hu
      · exact h.timed u b' hu
    · show emptyBacks (.back (visible evs).length :: l) + cnt c.threads tok (upd s.pc t .out) + s.notified.toNat + cnt c.threads setting (upd s.pc t .out) ≤
        notifies (.back (visible evs).length :: l)
      rw [e3]
      cases hv : visible evs with
      | nil =>
        simp only [List.length_nil, emptyBacks, hl]
        cases b with
        | true => simp [tok] at u1; simp; omega
        | false => simp [tok, hv] at u1; simp; omega
      | cons x xs =>
        simp only [List.length_cons, emptyBacks]
        have : (tok Pc.out).toNat = 0 := rfl
        omega
  case waitSwapSet b hp1 hn =>
    refine h.move ht hp1 _ (.inl rfl) (fun _ h => h) ?_
    rw [hn]; cases b <;> simp [tok, setting]
  case waitSwap b hp1 hn => exact h.move ht hp1 _ (.inl rfl) (fun _ h => h) (by simp [tok, setting])
  case waitPop b hp1 hn =>
    refine h.move ht hp1 _ (.inl rfl) (fun _ h => h) ?_
    cases b <;> simp [tok, setting, visible]
  case waitPopFail b hp1 hn =>
    refine h.move ht hp1 _ (.inl rfl) (fun _ h => h) ?_
    cases b <;> simp [tok, setting]
  case waitAgain b os order tbl hp1 ho hrd =>
    exact h.move ht hp1 _ (.inl rfl) (fun _ h => h) (by simp [tok, setting])
  case waitDone b os order tbl evs hp1 ho hrd =>
    refine h.move ht hp1 _ (.inl rfl) (fun _ h => h) ?_
    cases b with
    | true => simp [tok, setting]
    | false =>
      simp only [tok, setting, Bool.toNat_false]
      cases hv : visible evs with
      | nil => rw [done_empty hr hp1 ho hrd hv]; simp
      | cons x xs => simp
  case waitUnlock b r hp1 =>
    refine h.move ht hp1 _ (.inl rfl) (fun _ h => h) ?_
    cases b <;> cases r <;> simp [tok, setting]
  case waitPollFail b e hp1 => exact h.move ht hp1 _ (.inl rfl) (fun _ h => h) (by simp [tok, setting])
  case notifyCv hp1 => exact h.move ht hp1 _ (.inr rfl) (fun _ h => by cases h) (by simp [tok, setting])
  case callCv r hp1 => exact h.move ht hp1 _ (.inr rfl) (fun _ h => by cases h) (by simp [tok, setting])
  case notifySwap hp1 hn => exact h.move ht hp1 _ (.inl rfl) (fun _ h => by cases h) (by simp [tok, setting])
  all_goals
    have hp1 := ‹s.pc t = _›
    refine h.move ht hp1 _ (.inl rfl) (fun _ h => by first | exact h | cases h) ?_
    simp [tok, setting]

theorem reach_hand {c P s l} (h : Runs (fun s => s = init c) (fun s (a : Tid × Act) => step c s a.1 a.2) P s l) : HInv c s (l.filterMap handOf) := by
  induction h with
  | @init s hi =>
    subst hi
    have z : ∀ Q : Pc → Bool, Q .out = false → cnt c.threads Q (init c).pc = 0 := fun Q hQ => cnt_zero.2 fun _ _ => hQ
    refine ⟨fun t b h => (by cases h), ?_⟩
    rw [z tok rfl, z setting rfl]; exact Nat.le_refl _
  | @step s l a s' o hr _ hs ih =>
    obtain ⟨ht, hn⟩ := step_next hs
    have := ih.next (runs_reach hr) ht hn
    have e : ((a, o) :: l).filterMap handOf = (handOf (a, o)).toList ++ l.filterMap handOf := by
      rw [List.filterMap_cons]; cases handOf (a, o) <;> rfl
    rw [e]; exact this

end Polling.PollP
