import Verif.Proof.IocpFReal

/- Progress of the fine-grained machine: a section of code always goes on, and soon ends. -/

namespace Polling.IocpF
open Iocp IocpSpec IocpM

/- The access that would take the mutex again is never reached. -/

theorem stepSock_closing {fault s b pos s' b' mk} (h : stepSock fault s b pos = some (.closing, s', b', mk)) :
    ∃ key old, pos = .feedInfo key old ∧ b.count ≥ 1 ∧ intersects b.events LOCAL_CLOSE = true := by
  cases pos with
  | feedInfo key old =>
    refine ⟨key, old, rfl, ?_⟩
    unfold stepSock at h
    dsimp only at h
    split at h
    · rename_i h1
      split at h
      · rename_i h2; exact ⟨h1, h2⟩
      · cases h
    · cases h
  | setStatus =>
    have : (some (match s.status with | .polling flags => Pos.setFlags flags | _ => .fin (.set true), s, b, none) :
      Option (Pos × Sock × Buf × Option Mark)) = some (.closing, s', b', mk) := h
    cases hs : s.status <;> rw [hs] at this <;> cases this
  | wod => unfold stepSock at h; dsimp only at h; split at h <;> cases h
  | status => unfold stepSock at h; dsimp only at h; split at h <;> cases h
  | flags f => unfold stepSock at h; dsimp only at h; split at h <;> cases h
  | tryLock f => unfold stepSock at h; dsimp only at h; split at h <;> cases h
  | ioctl f =>
    unfold stepSock at h
    cases fault with
    | none => cases h
    | some e => dsimp only at h; by_cases ht : tolerated e <;> simp only [ht] at h <;> cases h
  | pending d => unfold stepSock at h; dsimp only at h; split at h <;> cases h
  | cancelIo d => cases fault <;> cases h
  | delRead => unfold stepSock at h; dsimp only at h; split at h <;> cases h
  | delStatus => unfold stepSock at h; dsimp only at h; split at h <;> cases h
  | feedWod k o => unfold stepSock at h; dsimp only at h; split at h <;> cases h
  | feedIosb k o =>
    have : (some (afterIosb k o b.status, s, b, none) : Option (Pos × Sock × Buf × Option Mark)) = some (.closing, s', b', mk) := h
    cases hb : b.status <;> rw [hb] at this <;> cases this
  | feedInterest ev o => unfold stepSock at h; dsimp only at h; split at h <;> cases h
  | feedMode ev =>
    have : (some (if s.mode = .oneshot then Pos.feedClear ev else .fin (.fed (some ev)), s, b, none) : Option (Pos × Sock × Buf × Option Mark)) =
      some (.closing, s', b', mk) := h
    split at this <;> cases this
  | _ => cases h

theorem stepWtb_closing {fault w pos w' mk} (h : stepWtb fault w pos = some (.closing, w', mk)) : False := by
  cases pos with
  | winterest => unfold stepWtb at h; dsimp only at h; split at h <;> cases h
  | wstatus => unfold stepWtb at h; dsimp only at h; split at h <;> cases h
  | register => cases fault <;> cases h
  | wfeedMode ev =>
    have : (some (if w.mode = .oneshot then Pos.wfeedClear ev else .fin (.fed (some ev)), w, none) : Option (Pos × Wtb × Option Mark)) =
      some (.closing, w', mk) := h
    split at this <;> cases this
  | _ => cases h

theorem abs_op {f : F} {p x} (h : f.m.c.pk p = .socket x) (hd : isDone x.op = true) : ∃ y, (abs f).c.pk p = .socket y ∧ y.op = x.op := by
  show ∃ y, absPkt (decide (f.taken = some p)) (f.sec p) (f.m.c.pk p) = .socket y ∧ _
  rw [h]
  have hb : ∀ tk, (baseS tk x).op = x.op := by
    intro tk
    unfold baseS
    cases tk <;> (try rfl)
    cases ho : x.op with
    | done r => simp [isDone]
    | _ => rw [ho] at hd; cases hd
  cases hs : f.sec p with
  | none => exact ⟨_, rfl, hb _⟩
  | some wp =>
    obtain ⟨who, pos⟩ := wp
    exact ⟨_, rfl, (absS_keep _ _).trans (hb _)⟩

/-- What a step does to a mutex. -/
inductive Moves (n : Nat) (f : F) (a : FAct) (f' : F) (p : PId) : Prop
  | same (h : f'.sec p = f.sec p) (hb : (∀ r, a ≠ .write p r) → f'.buf p = f.buf p) (ha : ∀ fault, a ≠ .access p fault) (hu : f.sec p ≠ none → a ≠ .unlock p)
  | lock {who k pos} (ha : a = .lock who p) (hsite : site f.m who = some (k, p)) (hn : f.sec p = none) (he : entry k (f.m.c.pk p) = some pos)
      (h : f'.sec p = some (who, pos)) (hb : f'.buf p = f.buf p)
  | access {who pos fault r} (ha : a = .access p fault) (hs : f.sec p = some (who, pos))
      (hr : stepPkt fault (f.m.c.pk p) (f.buf p) pos = some r) (h : f'.sec p = some (who, r.1)) (hb : f'.buf p = r.2.2.1)
  | unlock {who out} (ha : a = .unlock p) (hs : f.sec p = some (who, .fin out)) (h : f'.sec p = none) (hb : f'.buf p = f.buf p)

theorem moves {n f a f' o} (hs : fstep n f a = some (f', o)) (p : PId) : Moves n f a f' p := by
  cases a with
  | plain a =>
    simp only [fstep] at hs
    split at hs
    · cases hst : step n f.m a with
      | none => rw [hst] at hs; cases hs
      | some r => rw [hst] at hs; cases hs; exact .same rfl (fun _ => rfl) (fun _ h => by cases h) (fun _ h => by cases h)
    · cases hs
  | take =>
    simp only [fstep] at hs
    split at hs
    · split at hs
      · cases hs; exact .same rfl (fun _ => rfl) (fun _ h => by cases h) (fun _ h => by cases h)
      · cases hs
    · cases hs
  | lock w q =>
    simp only [fstep] at hs
    split at hs
    · rename_i k q' hk
      split at hs
      · rename_i hc
        obtain ⟨rfl, hn, _⟩ := hc
        cases he : entry k (f.m.c.pk q') with
        | none => rw [he] at hs; cases hs
        | some pos =>
          rw [he] at hs; cases hs
          by_cases e : p = q'
          · subst e; exact .lock rfl hk hn he (put_self _ _ _) rfl
          · exact .same (put_other _ _ e) (fun _ => rfl) (fun _ h => by cases h) (fun _ h => by cases h)
      · cases hs
    · cases hs
  | access q fault =>
    simp only [fstep] at hs
    split at hs
    · rename_i w pos hk
      cases hst : stepPkt fault (f.m.c.pk q) (f.buf q) pos with
      | none => rw [hst] at hs; cases hs
      | some r =>
        rw [hst] at hs; cases hs
        by_cases e : p = q
        · subst e; exact .access rfl hk hst (put_self _ _ _) (put_self _ _ _)
        · exact .same (put_other _ _ e) (fun _ => put_other _ _ e) (fun _ h => by cases h; exact e rfl) (fun _ h => by cases h)
    · cases hs
  | unlock q =>
    simp only [fstep] at hs
    split at hs
    · rename_i who out hk
      cases hs
      by_cases e : p = q
      · subst e; exact .unlock rfl hk (put_self _ _ _) rfl
      · exact .same (put_other _ _ e) (fun _ => rfl) (fun _ h => by cases h) (fun _ h => by cases h; exact e rfl)
    · cases hs
  | write q r =>
    simp only [fstep] at hs
    split at hs
    · split at hs
      · split at hs
        · cases hs
          refine .same rfl (fun hr => ?_) (fun _ h => by cases h) (fun _ h => by cases h)
          by_cases e : p = q
          · subst e; exact absurd rfl (hr r)
          · exact put_other _ _ e
        · cases hs
      · cases hs
    · cases hs

theorem never_closing {n f tr} (h : FReach n FAny f tr) : ∀ p who, f.sec p ≠ some (who, .closing) := by
  induction h with
  | init => nofun
  | @step f tr a f' o hf _ hs ih =>
    intro p who hc
    cases moves hs p with
    | same h => exact ih p who (h ▸ hc)
    | @lock w k pos _ _ _ he h =>
      rw [hc] at h
      cases h
      cases k <;> cases hx : f.m.c.pk p <;> rw [hx] at he <;> cases he
    | @access w pos fault r _ hk hst h =>
      rw [hc] at h
      obtain ⟨pos', x', b', mk⟩ := r
      cases h
      have hi := refine_any hf
      have hok := (hi.2.sec p who pos hk).1
      cases hx : f.m.c.pk p with
      | socket s =>
        rw [hx] at hst hok
        unfold stepPkt at hst
        dsimp only at hst
        cases h2 : stepSock fault s (f.buf p) pos with
        | none => rw [h2] at hst; cases hst
        | some r =>
          obtain ⟨pos2, s2, b2, mk2⟩ := r
          rw [h2] at hst; cases hst
          obtain ⟨key, old, rfl, hc1, hc2⟩ := stepSock_closing h2
          obtain ⟨hfd, _, _, _, hop⟩ := hok
          obtain ⟨y, hy, hyo⟩ := abs_op hx hfd.2.1
          have hcl := reach_clean hi.1 p
          rw [hy] at hcl
          have := hcl.2.2 _ _ (hyo.trans hop)
          unfold intersects at hc2
          unfold NoClose at this
          rw [this] at hc2
          exact absurd hc2 (by decide)
      | waitable w =>
        rw [hx] at hst
        unfold stepPkt at hst
        dsimp only at hst
        cases h2 : stepWtb fault w pos with
        | none => rw [h2] at hst; cases hst
        | some r =>
          obtain ⟨pos2, w2, mk2⟩ := r
          rw [h2] at hst; cases hst
          exact stepWtb_closing h2
      | _ => rw [hx] at hst; cases hst
    | unlock _ _ h => rw [hc] at h; cases h

/- Every position but the last has a next access, and the accesses are few. -/

theorem enabledS {tk s b pos} (h : SockOk tk s b pos) (hc : pos ≠ .closing) (hf : ∀ out, pos ≠ .fin out) (fault) :
    (stepSock fault s b pos).isSome = true := by
  cases pos with
  | closing => exact absurd rfl hc
  | fin out => exact absurd rfl (hf out)
  | wod => unfold stepSock; dsimp only; split <;> rfl
  | status => unfold stepSock; dsimp only; split <;> rfl
  | flags f => unfold stepSock; dsimp only; split <;> rfl
  | tryLock f => unfold stepSock; dsimp only; split <;> rfl
  | ioctl f => cases fault <;> rfl
  | pending d => unfold stepSock; dsimp only; split <;> rfl
  | cancelIo d => cases fault <;> rfl
  | delRead => unfold stepSock; dsimp only; split <;> rfl
  | delStatus => unfold stepSock; dsimp only; split <;> rfl
  | feedWod k o => unfold stepSock; dsimp only; split <;> rfl
  | feedInfo k o => unfold stepSock; dsimp only; split <;> (try split) <;> rfl
  | feedInterest ev o => unfold stepSock; dsimp only; split <;> rfl
  | _ => first | rfl | exact h.elim

theorem enabledW {w pos} (h : WtbOk w pos) (hf : ∀ out, pos ≠ .fin out) (fault) : (stepWtb fault w pos).isSome = true := by
  cases pos with
  | fin out => exact absurd rfl (hf out)
  | winterest => unfold stepWtb; dsimp only; split <;> rfl
  | wstatus => unfold stepWtb; dsimp only; split <;> rfl
  | register => cases fault <;> rfl
  | _ => first | rfl | exact h.elim

/-- How many accesses are left at most. -/
def rank : Pos → Nat
  | .setInterest _ _ => 5 | .setMode _ => 4 | .setError => 3 | .setStatus => 2 | .setFlags _ => 1
  | .wsetInterest _ _ => 3 | .wsetMode _ => 2 | .wsetStatus => 1
  | .wod => 8 | .status => 7 | .flags _ => 4 | .mask => 6 | .tryLock _ => 5 | .info _ => 4 | .iosb _ => 3 | .ioctl _ => 2 | .polling _ => 1
  | .pending _ => 3 | .cancelIo _ => 2 | .cancelled _ => 1
  | .delRead => 6 | .delWrite => 5 | .delStatus => 4
  | .key => 9 | .idle _ => 8 | .feedWod _ _ => 7 | .feedIosb _ _ => 6 | .feedInfo _ _ => 5 | .feedInterest _ _ => 4
  | .feedMode _ => 3 | .feedClear _ => 2 | .feedError _ => 1
  | .closing => 0
  | .winterest => 4 | .wstatus => 3 | .register => 2 | .waiting => 1
  | .wfeed => 3 | .wfeedMode _ => 2 | .wfeedClear _ => 1
  | .wunregister => 2 | .wcancelled => 1
  | .cunregister => 2 | .cidle => 1
  | .fin _ => 0

theorem rank_le (pos : Pos) : rank pos ≤ 9 := by
  cases pos <;> exact Nat.le_of_ble_eq_true rfl

theorem rankS {fault s b pos pos' s' b' mk} (h : stepSock fault s b pos = some (pos', s', b', mk)) : rank pos' < rank pos := by
  cases pos with
  | setStatus =>
    have : (some (match s.status with | .polling flags => Pos.setFlags flags | _ => .fin (.set true), s, b, none) :
      Option (Pos × Sock × Buf × Option Mark)) = some (pos', s', b', mk) := h
    cases hs : s.status <;> rw [hs] at this <;> cases this <;> exact Nat.le_of_ble_eq_true rfl
  | wod => unfold stepSock at h; dsimp only at h; split at h <;> cases h <;> exact Nat.le_of_ble_eq_true rfl
  | status => unfold stepSock at h; dsimp only at h; split at h <;> cases h <;> exact Nat.le_of_ble_eq_true rfl
  | flags f => unfold stepSock at h; dsimp only at h; split at h <;> cases h <;> exact Nat.le_of_ble_eq_true rfl
  | tryLock f => unfold stepSock at h; dsimp only at h; split at h <;> cases h <;> exact Nat.le_of_ble_eq_true rfl
  | ioctl f =>
    cases fault with
    | none => cases h; exact Nat.le_of_ble_eq_true rfl
    | some e =>
      have : (some (if tolerated e then Pos.polling f else .fin (.upd (.err e)), s, b, some .tau) : Option (Pos × Sock × Buf × Option Mark)) =
        some (pos', s', b', mk) := h
      split at this <;> cases this <;> exact Nat.le_of_ble_eq_true rfl
  | pending d => unfold stepSock at h; dsimp only at h; split at h <;> cases h <;> exact Nat.le_of_ble_eq_true rfl
  | cancelIo d => cases fault <;> cases h <;> exact Nat.le_of_ble_eq_true rfl
  | delRead => unfold stepSock at h; dsimp only at h; split at h <;> cases h <;> exact Nat.le_of_ble_eq_true rfl
  | delStatus => unfold stepSock at h; dsimp only at h; split at h <;> cases h <;> exact Nat.le_of_ble_eq_true rfl
  | feedWod k o => unfold stepSock at h; dsimp only at h; split at h <;> cases h <;> exact Nat.le_of_ble_eq_true rfl
  | feedIosb k o =>
    have : (some (afterIosb k o b.status, s, b, none) : Option (Pos × Sock × Buf × Option Mark)) = some (pos', s', b', mk) := h
    cases hb : b.status <;> rw [hb] at this <;> cases this <;> exact Nat.le_of_ble_eq_true rfl
  | feedInfo k o =>
    unfold stepSock at h; dsimp only at h
    split at h
    · split at h <;> cases h <;> exact Nat.le_of_ble_eq_true rfl
    · cases h; exact Nat.le_of_ble_eq_true rfl
  | feedInterest ev o => unfold stepSock at h; dsimp only at h; split at h <;> cases h <;> exact Nat.le_of_ble_eq_true rfl
  | feedMode ev =>
    have : (some (if s.mode = .oneshot then Pos.feedClear ev else .fin (.fed (some ev)), s, b, none) : Option (Pos × Sock × Buf × Option Mark)) =
      some (pos', s', b', mk) := h
    split at this <;> cases this <;> exact Nat.le_of_ble_eq_true rfl
  | _ => cases h <;> exact Nat.le_of_ble_eq_true rfl

theorem rankW {fault w pos pos' w' mk} (h : stepWtb fault w pos = some (pos', w', mk)) : rank pos' < rank pos := by
  cases pos with
  | winterest => unfold stepWtb at h; dsimp only at h; split at h <;> cases h <;> exact Nat.le_of_ble_eq_true rfl
  | wstatus => unfold stepWtb at h; dsimp only at h; split at h <;> cases h <;> exact Nat.le_of_ble_eq_true rfl
  | register => cases fault <;> cases h <;> exact Nat.le_of_ble_eq_true rfl
  | wfeedMode ev =>
    have : (some (if w.mode = .oneshot then Pos.wfeedClear ev else .fin (.fed (some ev)), w, none) : Option (Pos × Wtb × Option Mark)) =
      some (pos', w', mk) := h
    split at this <;> cases this <;> exact Nat.le_of_ble_eq_true rfl
  | _ => cases h <;> exact Nat.le_of_ble_eq_true rfl

theorem rankP {fault x b pos r} (h : stepPkt fault x b pos = some r) : rank r.1 < rank pos := by
  cases x with
  | socket s =>
    unfold stepPkt at h
    dsimp only at h
    cases h2 : stepSock fault s b pos with
    | none => rw [h2] at h; cases h
    | some r => rw [h2] at h; cases h; exact rankS h2
  | waitable w =>
    unfold stepPkt at h
    dsimp only at h
    cases h2 : stepWtb fault w pos with
    | none => rw [h2] at h; cases h
    | some r => rw [h2] at h; cases h; exact rankW h2
  | _ => cases h

/-- The owner of a mutex can go on, whatever its system calls do. -/
theorem owner_steps {n f tr p who pos} (h : FReach n FAny f tr) (hs : f.sec p = some (who, pos)) :
    (∃ out, pos = .fin out ∧ (fstep n f (.unlock p)).isSome = true) ∨ ∀ fault, (fstep n f (.access p fault)).isSome = true := by
  by_cases hf : ∃ out, pos = .fin out
  · obtain ⟨out, rfl⟩ := hf
    refine .inl ⟨out, rfl, ?_⟩
    show (match f.sec p with | some (who, .fin out) => _ | _ => none : Option (F × Option IObs)).isSome = true
    rw [hs]; rfl
  · refine .inr fun fault => ?_
    have hf : ∀ out, pos ≠ .fin out := fun out e => hf ⟨out, e⟩
    have hc : pos ≠ .closing := fun e => never_closing h p who (by rw [hs, e])
    have hok := ((refine_any h).2.sec p who pos hs).1
    have : (stepPkt fault (f.m.c.pk p) (f.buf p) pos).isSome = true := by
      cases hx : f.m.c.pk p with
      | socket s =>
        rw [hx] at hok
        unfold stepPkt
        dsimp only
        rw [Option.isSome_map]
        exact enabledS hok hc hf fault
      | waitable w =>
        rw [hx] at hok
        unfold stepPkt
        dsimp only
        rw [Option.isSome_map]
        exact enabledW hok hf fault
      | _ => rw [hx] at hok; exact hok.elim
    show (match f.sec p with | some (who, pos) => _ | none => none : Option (F × Option IObs)).isSome = true
    rw [hs]
    dsimp only
    rw [Option.isSome_map]
    exact this

/-- Nobody holds two mutexes. -/
theorem one_mutex {n f tr p q who a b} (h : FReach n FAny f tr) (hp : f.sec p = some (who, a)) (hq : f.sec q = some (who, b)) : p = q := by
  have hi := (refine_any h).2
  have h1 := (hi.sec p who a hp).2
  have h2 := (hi.sec q who b hq).2
  cases who with
  | thread t =>
    obtain ⟨_, k1, e1, _⟩ := h1
    obtain ⟨_, k2, e2, _⟩ := h2
    rw [e1] at e2; cases e2; rfl
  | waiter =>
    obtain ⟨k1, e1, _⟩ := h1
    obtain ⟨k2, e2, _⟩ := h2
    rw [e1] at e2; cases e2; rfl
  | callback c =>
    exact h1.1.symm.trans h2.1

end Polling.IocpF
