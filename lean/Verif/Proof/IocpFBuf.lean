import Verif.Proof.IocpFLive
import Verif.Proof.IocpOps

/- The memory shared with the kernel. -/

namespace Polling.IocpF
open Iocp IocpSpec IocpM

/-- A run. -/
inductive FSteps (n : Nat) : F → List FAct → F → Prop
  | nil {f} : FSteps n f [] f
  | cons {f a f' o as f''} : fstep n f a = some (f', o) → FSteps n f' as f'' → FSteps n f (a :: as) f''

theorem steps_reach {n f as f' tr} (h : FSteps n f as f') (hf : FReach n FAny f tr) : ∃ out, FReach n FAny f' (out ++ tr) := by
  induction h generalizing tr with
  | nil => exact ⟨[], hf⟩
  | cons hs _ ih =>
    obtain ⟨out, h⟩ := ih (.step hf trivial hs)
    exact ⟨out ++ _, by rw [List.append_assoc]; exact h⟩

theorem steps_append {n f as f' bs f''} (h : FSteps n f as f') (h' : FSteps n f' bs f'') : FSteps n f (as ++ bs) f'' := by
  induction h with
  | nil => exact h'
  | cons hs _ ih => exact .cons hs (ih h')

theorem reach_steps {n f tr} (h : FReach n FAny f tr) : ∃ as, FSteps n init as f := by
  induction h with
  | init => exact ⟨[], .nil⟩
  | step _ _ hs ih => obtain ⟨as, h⟩ := ih; exact ⟨as ++ [_], steps_append h (.cons hs .nil)⟩

/-- Accesses to the packet. -/
def isAccess (p : PId) : FAct → Bool
  | .access q _ => decide (q = p)
  | _ => false

/-- A section of code is short. -/
theorem section_bound {n f as f'} (h : FSteps n f as f') : ∀ {p who pos}, f.sec p = some (who, pos) → .unlock p ∉ as →
    ∃ pos', f'.sec p = some (who, pos') ∧ as.countP (isAccess p) + rank pos' ≤ rank pos := by
  induction h with
  | nil => intro p who pos hs _; exact ⟨pos, hs, by simp⟩
  | @cons f a f1 o as f2 hst _ ih =>
    intro p who pos hs hno
    cases moves hst p with
    | same e _ ha _ =>
      obtain ⟨pos', h1, h2⟩ := ih (e.trans hs) (fun hm => hno (List.mem_cons_of_mem _ hm))
      refine ⟨pos', h1, ?_⟩
      have : isAccess p a = false := by
        cases a with
        | access q fault => exact decide_eq_false fun e => ha fault (by rw [e])
        | _ => rfl
      rw [List.countP_cons_of_neg (by rw [this]; decide)]
      exact h2
    | lock _ _ hn => rw [hs] at hn; cases hn
    | access ha hs' hr e =>
      rw [hs] at hs'
      cases hs'
      obtain ⟨pos', h1, h2⟩ := ih e (fun hm => hno (List.mem_cons_of_mem _ hm))
      refine ⟨pos', h1, ?_⟩
      rw [List.countP_cons_of_pos (by rw [ha]; exact decide_eq_true rfl)]
      have := rankP hr
      omega
    | unlock ha => exact absurd (ha ▸ List.mem_cons_self) hno

/-- The owner of a mutex releases it by its own steps. -/
theorem section_free {n p who} : ∀ k {f tr pos}, FReach n FAny f tr → f.sec p = some (who, pos) → rank pos ≤ k →
    ∃ as f', as.length ≤ k + 1 ∧ (∀ a ∈ as, a = .access p none ∨ a = .unlock p) ∧ FSteps n f as f' ∧ f'.sec p = none := by
  intro k
  induction k with
  | zero =>
    intro f tr pos hf hs hk
    rcases owner_steps hf hs with ⟨out, e, h1⟩ | h1
    · obtain ⟨r, hr⟩ := Option.isSome_iff_exists.mp h1
      refine ⟨[.unlock p], r.1, Nat.le_refl _, by simp, .cons (o := r.2) hr .nil, ?_⟩
      cases moves (o := r.2) hr p with
      | same _ _ _ hu => exact absurd rfl (hu (by rw [hs]; nofun))
      | lock ha => cases ha
      | access ha => cases ha
      | unlock _ _ h => exact h
    · obtain ⟨r, hr⟩ := Option.isSome_iff_exists.mp (h1 none)
      cases moves (o := r.2) hr p with
      | same _ _ ha _ => exact absurd rfl (ha none)
      | lock ha => cases ha
      | access _ hs' hr' =>
        rw [hs] at hs'; cases hs'
        have := rankP hr'
        omega
      | unlock ha => cases ha
  | succ k ih =>
    intro f tr pos hf hs hk
    rcases owner_steps hf hs with ⟨out, e, h1⟩ | h1
    · obtain ⟨r, hr⟩ := Option.isSome_iff_exists.mp h1
      refine ⟨[.unlock p], r.1, by simp, by simp, .cons (o := r.2) hr .nil, ?_⟩
      cases moves (o := r.2) hr p with
      | same _ _ _ hu => exact absurd rfl (hu (by rw [hs]; nofun))
      | lock ha => cases ha
      | access ha => cases ha
      | unlock _ _ h => exact h
    · obtain ⟨r, hr⟩ := Option.isSome_iff_exists.mp (h1 none)
      cases moves (o := r.2) hr p with
      | same _ _ ha _ => exact absurd rfl (ha none)
      | lock ha => cases ha
      | access ha hs' hr' e =>
        rw [hs] at hs'; cases hs'
        have := rankP hr'
        obtain ⟨as, f', h2, h3, h4, h5⟩ := ih (FReach.step (o := r.2) hf trivial hr) e (by omega)
        refine ⟨.access p none :: as, f', by rw [List.length_cons]; omega, ?_, .cons (o := r.2) hr h4, h5⟩
        intro a ha
        rcases List.mem_cons.mp ha with rfl | ha
        · exact .inl rfl
        · exact h3 a ha
      | unlock ha => cases ha

/- Buffers. -/

/-- The accesses that write to the buffers. -/
theorem stepSock_buf {fault s b pos pos' s' b' mk} (h : stepSock fault s b pos = some (pos', s', b', mk)) (hb : b' ≠ b) :
    ∃ mask, pos = .info mask ∨ pos = .iosb mask := by
  cases pos with
  | info mask => exact ⟨mask, .inl rfl⟩
  | iosb mask => exact ⟨mask, .inr rfl⟩
  | wod => unfold stepSock at h; dsimp only at h; split at h <;> cases h <;> exact absurd rfl hb
  | status => unfold stepSock at h; dsimp only at h; split at h <;> cases h <;> exact absurd rfl hb
  | flags f => unfold stepSock at h; dsimp only at h; split at h <;> cases h <;> exact absurd rfl hb
  | tryLock f => unfold stepSock at h; dsimp only at h; split at h <;> cases h <;> exact absurd rfl hb
  | ioctl f => cases fault <;> cases h <;> exact absurd rfl hb
  | pending d => unfold stepSock at h; dsimp only at h; split at h <;> cases h <;> exact absurd rfl hb
  | cancelIo d => cases fault <;> cases h <;> exact absurd rfl hb
  | delRead => unfold stepSock at h; dsimp only at h; split at h <;> cases h <;> exact absurd rfl hb
  | delStatus => unfold stepSock at h; dsimp only at h; split at h <;> cases h <;> exact absurd rfl hb
  | feedWod k o => unfold stepSock at h; dsimp only at h; split at h <;> cases h <;> exact absurd rfl hb
  | feedInfo k o =>
    unfold stepSock at h; dsimp only at h
    split at h
    · split at h <;> cases h <;> exact absurd rfl hb
    · cases h; exact absurd rfl hb
  | feedInterest ev o => unfold stepSock at h; dsimp only at h; split at h <;> cases h <;> exact absurd rfl hb
  | _ => cases h <;> exact absurd rfl hb

/-- Who writes to the buffers, and when. -/
theorem buf_writes {n f tr a f' o p} (hf : FReach n FAny f tr) (hs : fstep n f a = some (f', o)) (hb : f'.buf p ≠ f.buf p) :
    (∃ r s mask c, a = .write p r ∧ f.m.c.pk p = .socket s ∧ s.op = .inFlight mask c ∧ f.written p = none ∧ possible mask c r = true) ∨
    (∃ fault s, a = .access p fault ∧ f.m.c.pk p = .socket s ∧ s.op = .none ∧ s.inUse = true) := by
  by_cases hw : ∃ r, a = .write p r
  · obtain ⟨r, rfl⟩ := hw
    left
    simp only [fstep] at hs
    split at hs
    · rename_i s hx
      split at hs
      · rename_i mask c ho
        split at hs
        · rename_i hc
          exact ⟨r, s, mask, c, rfl, hx, ho, hc.1, hc.2⟩
        · cases hs
      · cases hs
    · cases hs
  · right
    have hw : ∀ r, a ≠ .write p r := fun r e => hw ⟨r, e⟩
    cases moves hs p with
    | same _ h => exact absurd (h hw) hb
    | lock _ _ _ _ _ h => exact absurd h hb
    | unlock _ _ _ h => exact absurd h hb
    | @access who pos fault r ha hsec hr _ h =>
      rw [h] at hb
      have hok := ((refine_any hf).2.sec p who pos hsec).1
      cases hx : f.m.c.pk p with
      | socket s =>
        rw [hx] at hr hok
        unfold stepPkt at hr
        dsimp only at hr
        cases h2 : stepSock fault s (f.buf p) pos with
        | none => rw [h2] at hr; cases hr
        | some r2 =>
          rw [h2] at hr; cases hr
          obtain ⟨mask, rfl | rfl⟩ := stepSock_buf h2 hb
          · exact ⟨fault, s, ha, rfl, hok.2.2.2.2, hok.2.2.2.1⟩
          · exact ⟨fault, s, ha, rfl, hok.2.2.2.2, hok.2.2.2.1⟩
      | waitable w =>
        rw [hx] at hr
        unfold stepPkt at hr
        dsimp only at hr
        cases h2 : stepWtb fault w pos with
        | none => rw [h2] at hr; cases hr
        | some r2 => rw [h2] at hr; cases hr; exact absurd rfl hb
      | _ => rw [hx] at hr; cases hr

theorem stepSock_iosb {fault s b pos mask s' b' mk} (h : stepSock fault s b pos = some (.iosb mask, s', b', mk)) :
    pos = .info mask ∧ b'.count = 1 ∧ b'.events = mask := by
  cases pos with
  | info mask => cases h; exact ⟨rfl, rfl, rfl⟩
  | setStatus =>
    have : (some (match s.status with | .polling flags => Pos.setFlags flags | _ => .fin (.set true), s, b, none) :
      Option (Pos × Sock × Buf × Option Mark)) = some (.iosb mask, s', b', mk) := h
    cases hs : s.status <;> rw [hs] at this <;> cases this
  | wod => unfold stepSock at h; dsimp only at h; split at h <;> cases h
  | status => unfold stepSock at h; dsimp only at h; split at h <;> cases h
  | flags f => unfold stepSock at h; dsimp only at h; split at h <;> cases h
  | tryLock f => unfold stepSock at h; dsimp only at h; split at h <;> cases h
  | ioctl f =>
    cases fault with
    | none => cases h
    | some e =>
      have : (some (if tolerated e then Pos.polling f else .fin (.upd (.err e)), s, b, some .tau) : Option (Pos × Sock × Buf × Option Mark)) =
        some (.iosb mask, s', b', mk) := h
      split at this <;> cases this
  | pending d => unfold stepSock at h; dsimp only at h; split at h <;> cases h
  | cancelIo d => cases fault <;> cases h
  | delRead => unfold stepSock at h; dsimp only at h; split at h <;> cases h
  | delStatus => unfold stepSock at h; dsimp only at h; split at h <;> cases h
  | feedWod k o => unfold stepSock at h; dsimp only at h; split at h <;> cases h
  | feedIosb k o =>
    have : (some (afterIosb k o b.status, s, b, none) : Option (Pos × Sock × Buf × Option Mark)) = some (.iosb mask, s', b', mk) := h
    cases hb : b.status <;> rw [hb] at this <;> cases this
  | feedInfo k o =>
    unfold stepSock at h; dsimp only at h
    split at h
    · split at h <;> cases h
    · cases h
  | feedInterest ev o => unfold stepSock at h; dsimp only at h; split at h <;> cases h
  | feedMode ev =>
    have : (some (if s.mode = .oneshot then Pos.feedClear ev else .fin (.fed (some ev)), s, b, none) : Option (Pos × Sock × Buf × Option Mark)) =
      some (.iosb mask, s', b', mk) := h
    split at this <;> cases this
  | _ => cases h

theorem stepSock_ioctl {fault s b pos mask s' b' mk} (h : stepSock fault s b pos = some (.ioctl mask, s', b', mk)) :
    pos = .iosb mask ∧ b' = { b with status := .pending } := by
  cases pos with
  | iosb mask => cases h; exact ⟨rfl, rfl⟩
  | setStatus =>
    have : (some (match s.status with | .polling flags => Pos.setFlags flags | _ => .fin (.set true), s, b, none) :
      Option (Pos × Sock × Buf × Option Mark)) = some (.ioctl mask, s', b', mk) := h
    cases hs : s.status <;> rw [hs] at this <;> cases this
  | wod => unfold stepSock at h; dsimp only at h; split at h <;> cases h
  | status => unfold stepSock at h; dsimp only at h; split at h <;> cases h
  | flags f => unfold stepSock at h; dsimp only at h; split at h <;> cases h
  | tryLock f => unfold stepSock at h; dsimp only at h; split at h <;> cases h
  | ioctl f =>
    cases fault with
    | none => cases h
    | some e =>
      have : (some (if tolerated e then Pos.polling f else .fin (.upd (.err e)), s, b, some .tau) : Option (Pos × Sock × Buf × Option Mark)) =
        some (.ioctl mask, s', b', mk) := h
      split at this <;> cases this
  | pending d => unfold stepSock at h; dsimp only at h; split at h <;> cases h
  | cancelIo d => cases fault <;> cases h
  | delRead => unfold stepSock at h; dsimp only at h; split at h <;> cases h
  | delStatus => unfold stepSock at h; dsimp only at h; split at h <;> cases h
  | feedWod k o => unfold stepSock at h; dsimp only at h; split at h <;> cases h
  | feedIosb k o =>
    have : (some (afterIosb k o b.status, s, b, none) : Option (Pos × Sock × Buf × Option Mark)) = some (.ioctl mask, s', b', mk) := h
    cases hb : b.status <;> rw [hb] at this <;> cases this
  | feedInfo k o =>
    unfold stepSock at h; dsimp only at h
    split at h
    · split at h <;> cases h
    · cases h
  | feedInterest ev o => unfold stepSock at h; dsimp only at h; split at h <;> cases h
  | feedMode ev =>
    have : (some (if s.mode = .oneshot then Pos.feedClear ev else .fin (.fed (some ev)), s, b, none) : Option (Pos × Sock × Buf × Option Mark)) =
      some (.ioctl mask, s', b', mk) := h
    split at this <;> cases this
  | _ => cases h

theorem stepWtb_not {fault w pos pos' w' mk} (h : stepWtb fault w pos = some (pos', w', mk)) : ∀ mask, pos' ≠ .iosb mask ∧ pos' ≠ .ioctl mask := by
  intro mask
  cases pos with
  | winterest => unfold stepWtb at h; dsimp only at h; split at h <;> cases h <;> exact ⟨nofun, nofun⟩
  | wstatus => unfold stepWtb at h; dsimp only at h; split at h <;> cases h <;> exact ⟨nofun, nofun⟩
  | register => cases fault <;> cases h <;> exact ⟨nofun, nofun⟩
  | wfeedMode ev =>
    have : (some (if w.mode = .oneshot then Pos.wfeedClear ev else .fin (.fed (some ev)), w, none) : Option (Pos × Wtb × Option Mark)) =
      some (pos', w', mk) := h
    split at this <;> cases this <;> exact ⟨nofun, nofun⟩
  | _ => cases h <;> exact ⟨nofun, nofun⟩

/-- The input of the operation is in the buffer when it is submitted. -/
theorem input_ready {n f tr} (h : FReach n FAny f tr) : ∀ p who mask, f.sec p = some (who, .iosb mask) ∨ f.sec p = some (who, .ioctl mask) →
    (f.buf p).count = 1 ∧ (f.buf p).events = mask := by
  induction h with
  | init => intro p who mask h; rcases h with h | h <;> cases h
  | @step f tr a f' o hf _ hs ih =>
    intro p who mask hsec
    have hnw : (f'.sec p = f.sec p) → ∀ r, a ≠ .write p r := by
      intro e r ha
      subst ha
      rw [e] at hsec
      have hop : ∃ s m c, f.m.c.pk p = .socket s ∧ s.op = .inFlight m c := by
        simp only [fstep] at hs
        split at hs
        · rename_i s hx
          split at hs
          · rename_i m c ho; exact ⟨s, m, c, hx, ho⟩
          · cases hs
        · cases hs
      obtain ⟨s, m, c, hx, ho⟩ := hop
      rcases hsec with hsec | hsec
      · have hok := ((refine_any hf).2.sec p who _ hsec).1
        rw [hx] at hok
        have := hok.2.2.2.2
        rw [ho] at this; cases this
      · have hok := ((refine_any hf).2.sec p who _ hsec).1
        rw [hx] at hok
        have := hok.2.2.2.2.1
        rw [ho] at this; cases this
    cases moves hs p with
    | same e hb => rw [hb (hnw e)]; rw [e] at hsec; exact ih p who mask hsec
    | @lock w k pos _ _ _ he e =>
      rw [e] at hsec
      cases k <;> cases hx : f.m.c.pk p <;> rw [hx] at he <;> cases he <;> rcases hsec with hsec | hsec <;> cases hsec
    | unlock _ _ e => rw [e] at hsec; rcases hsec with hsec | hsec <;> cases hsec
    | @access w pos fault r _ hs0 hr e hb =>
      rw [e] at hsec
      rw [hb]
      obtain ⟨pos', x', b', mk⟩ := r
      cases hx : f.m.c.pk p with
      | socket s =>
        rw [hx] at hr
        unfold stepPkt at hr
        dsimp only at hr
        cases h2 : stepSock fault s (f.buf p) pos with
        | none => rw [h2] at hr; cases hr
        | some r2 =>
          obtain ⟨pos2, s2, b2, mk2⟩ := r2
          rw [h2] at hr; cases hr
          rcases hsec with hsec | hsec
          · cases hsec
            obtain ⟨_, h3, h4⟩ := stepSock_iosb h2
            exact ⟨h3, h4⟩
          · cases hsec
            obtain ⟨rfl, rfl⟩ := stepSock_ioctl h2
            exact ih p who mask (.inl hs0)
      | waitable w =>
        rw [hx] at hr
        unfold stepPkt at hr
        dsimp only at hr
        cases h2 : stepWtb fault w pos with
        | none => rw [h2] at hr; cases hr
        | some r2 =>
          rw [h2] at hr; cases hr
          rcases hsec with hsec | hsec
          · exact absurd (by injection hsec with h; injection h) (stepWtb_not h2 mask).1
          · exact absurd (by injection hsec with h; injection h) (stepWtb_not h2 mask).2
      | _ => rw [hx] at hr; cases hr

end Polling.IocpF
