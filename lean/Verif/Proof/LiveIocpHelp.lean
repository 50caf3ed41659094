import Verif.Proof.LiveIocpSolo

/-! Threads that have taken a registration off the queue of updates finish updating it. -/

namespace Polling.IocpM
open Iocp IocpSpec

/-- The packet of the call itself. (iocp/mod.rs:506) -/
def UPc.own : UPc → PId
  | .load p | .run p | .push p | .pop p _ | .drain p _ _ => p

def Pc.updating : Pc → Option (Call × PId)
  | .upd c u => some (c, u.own)
  | _ => none

theorem ustep_own {fault c u c' v o} (h : ustep fault c u = (c', .more v, o)) : v.own = u.own := by
  cases u with
  | load p =>
    simp only [ustep, Prod.mk.injEq, UOut.more.injEq] at h
    rw [← h.2.1]; split <;> rfl
  | run p => simp only [ustep, Prod.mk.injEq] at h; cases h.2.1
  | push p =>
    simp only [ustep] at h
    split at h
    · simp at h
    · simp only [Prod.mk.injEq, UOut.more.injEq] at h; rw [← h.2.1]; rfl
  | pop p m =>
    simp only [ustep] at h
    split at h <;> (simp only [Prod.mk.injEq, UOut.more.injEq] at h; rw [← h.2.1]; rfl)
  | drain p m q =>
    simp only [ustep, Prod.mk.injEq] at h
    have h2 := h.2.1
    split at h2
    · simp only [UOut.more.injEq] at h2; rw [← h2]; rfl
    · cases h2

theorem step_updating {threads s a s' o} (hs : step threads s a = some (s', o)) (t : Tid) (call : Call) (p : PId)
    (h : (s'.pc t).updating = some (call, p)) :
    (s.pc t).updating = some (call, p) ∨ (s.pc t).looked = some (call, p) ∨ ident (s'.c.pk p) = some (callSock call, callFd call) := by
  have hup : ∀ (u : Tid) (x : Pc), s'.pc = upd s.pc u x → x.updating = none → (s.pc t).updating = some (call, p) := by
    intro u x e hx
    rw [e] at h
    by_cases e' : t = u
    · subst e'; rw [upd_self, hx] at h; cases h
    · rw [upd_other _ _ e'] at h; exact h
  cases a with
  | call u c =>
    simp only [step] at hs
    split at hs
    · cases hs
    split at hs
    · split at hs
      · cases hs
      split at hs
      · cases hs; exact .inl h
      split at hs
      · cases hs; exact .inl h
      cases hs
      refine .inl (hup u _ rfl ?_)
      split <;> rfl
    · cases hs
  | go u fault =>
    simp only [step, goCall] at hs
    split at hs
    · cases hs
    split at hs
    · split at hs <;> (cases hs; exact .inl (hup u _ rfl rfl))
    · split at hs
      · split at hs
        · cases hs; exact .inl (hup u _ rfl rfl)
        · cases hs
          dsimp only at h ⊢
          by_cases e' : t = u
          · subst e'; rw [upd_self] at h; cases h
            refine .inr (.inr ?_)
            rw [show (UPc.load s.c.next).own = s.c.next from rfl, setPk_self]
            unfold newPkt
            split <;> simp_all [ident, callSock, callFd]
          · rw [upd_other _ _ e'] at h; exact .inl h
      · split at hs
        · cases hs; exact .inl (hup u _ rfl rfl)
        · cases hs; exact .inl (hup u _ rfl rfl)
      · split at hs
        · cases hs; exact .inl (hup u _ rfl rfl)
        · cases hs; exact .inl (hup u _ rfl rfl)
    · rename_i c q hpc
      split at hs
      · cases hs
        dsimp only at h
        by_cases e' : t = u
        · subst e'; rw [upd_self] at h
          split at h
          · cases h; exact .inr (.inl (by rw [hpc]; rfl))
          · cases h
        · rw [upd_other _ _ e'] at h; exact .inl h
      · cases hs
    · cases hs; exact .inl (hup u _ rfl rfl)
    · rename_i c v hpc
      split at hs
      · rename_i c' v' o' hu
        cases hs
        dsimp only at h
        by_cases e' : t = u
        · subst e'; rw [upd_self] at h
          left
          rw [hpc, ← h]
          show some (c, v.own) = some (c, v'.own)
          rw [ustep_own hu]
        · rw [upd_other _ _ e'] at h; exact .inl h
      · cases hs; exact .inl (hup u _ rfl rfl)
    · cases hs; exact .inl (hup u _ rfl rfl)
    · cases hs
  | wait fault =>
    simp only [step, goWait, waitFail] at hs
    repeat' split at hs
    all_goals cases hs
    all_goals exact .inl h
  | notifyCas u =>
    simp only [step] at hs
    repeat' split at hs
    all_goals cases hs
    · exact .inl h
    · exact .inl (hup u _ rfl rfl)
  | notifyPost u fault =>
    simp only [step] at hs
    repeat' split at hs
    all_goals cases hs
    · exact .inl (hup u _ rfl rfl)
    · exact .inl (hup u _ rfl rfl)
  | _ =>
    simp only [step] at hs
    repeat' split at hs
    all_goals cases hs
    all_goals exact .inl h

/-- A call that updates a packet found or made it for its source. -/
theorem reach_updating {threads P s tr} (h : Reach threads P s tr) : ∀ t call p, (s.pc t).updating = some (call, p) →
    ident (s.c.pk p) = some (callSock call, callFd call) := by
  induction h with
  | init => intro t call p h; cases h
  | @step s tr a s' o hr _ hs ih =>
    intro t call p hl
    have hti := reach_ti hr
    rcases step_updating hs t call p hl with h | h | h
    · exact ident_eff hti.low (reach_eff hr hs) p (ih t call p h)
    · exact ident_eff hti.low (reach_eff hr hs) p (reach_own hr t call p h)
    · exact h

/-- The thread has taken the packet `p` off the queue and updates it next. (iocp/mod.rs:539-541) -/
def Draining (s : S) (p : PId) (t : Tid) : Prop := ∃ call p' m, s.pc t = .upd call (.drain p' m p)

/-- Threads that have taken the packet `p` off the queue update it, one after the other. -/
inductive Helps (n : Nat) (p : PId) : S → List IObs → S → Prop
  | refl (s) : Helps n p s [] s
  | step {s t s1 o obs s2} : Draining s p t → step n s (.go t none) = some (s1, o) → Helps n p s1 obs s2 → Helps n p s (obs ++ [o]) s2

theorem help_step {n P s tr p t} (h : Reach n P s tr) (hd : Draining s p t) :
    ∃ s1 o, step n s (.go t none) = some (s1, o) ∧ Accepts s (.go t none) ∧ NoRace s (.go t none) ∧ s1.phase = s.phase ∧
      (∀ q, ¬ Draining s1 q t) ∧ (∀ u, u ≠ t → s1.pc u = s.pc u) ∧ s1.c.port = s.c.port ∧ (o = .tau ∨ ∃ m, o = .polled p m) := by
  obtain ⟨call, p', m, hpc⟩ := hd
  have ht : ¬ t ≥ n := fun hge => by rw [reach_threads h t hge] at hpc; cases hpc
  have hid : ident (s.c.pk p) ≠ none := reach_holder h p (.inr (.inl ⟨t, by rw [hpc]; exact .inr rfl⟩))
  have hok := update_ok hid
  rcases hu : update none s.c p with ⟨r, c', mm⟩
  rw [hu] at hok
  cases hok
  have hport : c'.port = s.c.port := by
    have := congrArg (fun x => x.2.1.port) hu
    rw [← show (update none s.c p).2.1.port = c'.port from this]
    unfold update
    repeat' split
    all_goals rfl
  refine ⟨{ s with c := c', pc := upd s.pc t (.upd call (.pop p' m)) }, updateObs p mm, ?_, trivial, ?_, rfl, ?_, ?_, hport, ?_⟩
  · simp only [step, if_neg ht, goCall, hpc, ustep, hu]
  · intro c q e; rw [hpc] at e; cases e
  · rintro q ⟨c, p'', m', e⟩
    dsimp only at e
    rw [upd_self] at e; cases e
  · intro u hne; exact upd_other _ _ hne
  · cases mm with
    | none => exact .inl rfl
    | some x => exact .inr ⟨x, rfl⟩

structure Helped (n : Nat) (p : PId) (s : S) (obs : List IObs) (s' : S) : Prop where
  run : Helps n p s obs s'
  phase : s'.phase = s.phase
  port : s'.c.port = s.c.port
  quiet : ∀ o ∈ obs, o = .tau ∨ ∃ m, o = .polled p m
  pc : ∀ t, s'.pc t = s.pc t ∨ Draining s p t ∧ ∀ q, ¬ Draining s' q t
  reach : ∀ tr, Reach n (fun s a => Accepts s a ∧ NoRace s a) s tr → Reach n (fun s a => Accepts s a ∧ NoRace s a) s' (obs ++ tr)

theorem Helps.snoc {n p s obs s1 t o s2} (h : Helps n p s obs s1) (hd : Draining s1 p t) (hs : IocpM.step n s1 (.go t none) = some (s2, o)) :
    Helps n p s (o :: obs) s2 := by
  induction h with
  | refl s => exact .step (obs := []) hd hs (.refl _)
  | step hd' hs' _ ih => exact .step (obs := o :: _) hd' hs' (ih hd hs)

theorem help_all {n s tr p} (h : Reach n (fun s a => Accepts s a ∧ NoRace s a) s tr) : ∀ k, ∃ obs s', Helped n p s obs s' ∧ ∀ t, t < k → ¬ Draining s' p t := by
  intro k
  induction k with
  | zero => exact ⟨[], s, ⟨.refl s, rfl, rfl, by simp, fun _ => .inl rfl, fun _ h => h⟩, fun t ht => absurd ht (Nat.not_lt_zero t)⟩
  | succ k ih =>
    obtain ⟨obs, s1, hh, hno⟩ := ih
    by_cases hd : Draining s1 p k
    · obtain ⟨s2, o, hs, ha, hn, h1, h2, h3, h4, h5⟩ := help_step (hh.reach tr h) hd
      refine ⟨o :: obs, s2, ⟨hh.run.snoc hd hs, h1.trans hh.phase, h4.trans hh.port, ?_, ?_, ?_⟩, ?_⟩
      · intro x hx
        rcases List.mem_cons.1 hx with rfl | hx
        · exact h5
        · exact hh.quiet x hx
      · intro t
        by_cases e : t = k
        · subst e
          right
          refine ⟨?_, h2⟩
          rcases hh.pc t with h | h
          · obtain ⟨c, p', m, hpc⟩ := hd
            exact ⟨c, p', m, by rw [← h]; exact hpc⟩
          · exact absurd hd (h.2 p)
        · rcases hh.pc t with h | h
          · left; rw [h3 t e]; exact h
          · refine .inr ⟨h.1, fun q ⟨c, p', m, hq⟩ => h.2 q ⟨c, p', m, by rw [← h3 t e]; exact hq⟩⟩
      · intro tr' h'
        exact (hh.reach tr' h').step ⟨ha, hn⟩ hs
      · intro t ht
        by_cases e : t = k
        · subst e; exact h2 p
        · rintro ⟨c, p', m, hq⟩
          rw [h3 t e] at hq
          exact hno t (by omega) ⟨c, p', m, hq⟩
    · refine ⟨obs, s1, hh, fun t ht => ?_⟩
      by_cases e : t = k
      · subst e; exact hd
      · exact hno t (by omega)

end Polling.IocpM
