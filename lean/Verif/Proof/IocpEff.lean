import Verif.Model.IocpM

/-! The steps of the IOCP model by their effect on the packets and tables. -/

namespace Polling.IocpM
open Iocp IocpSpec

/-- Which source a packet is for. -/
def ident : Pkt → Option (Bool × Fd)
  | .socket s => some (true, s.socket)
  | .waitable w => some (false, w.handle)
  | _ => none

/-- The observation says nothing about registrations. -/
def Quiet : IObs → Prop
  | .inserted .. | .changed .. | .removed .. | .deleted .. | .deliver .. => False
  | _ => True

theorem quiet_updateObs (p m) : Quiet (updateObs p m) := by
  unfold updateObs; split <;> trivial

/-- The call passed the checks at its beginning. -/
def okCall (call : Call) : Bool := callBuildable call && !edge (callMode call) && !reserved call

/-- The call a thread is in. -/
def Pc.call? : Pc → Option Call
  | .prepare c | .table c | .set c _ | .del c _ | .upd c _ | .ret c _ => some c
  | .out | .notify => none

/-- Several completion entries are dropped. -/
def dropEntries (c : Core) (batch : List PId) : Core := batch.foldl dropEntry c

/-- Effects of a step on packets and tables. -/
inductive Eff : Core → IObs → Core → Prop
  /-- none (queue, port and flag aside) -/
  | quiet {c c' : Core} {o} : c'.pk = c.pk → c'.next = c.next → c'.table = c.table → Quiet o → Eff c o c'
  | insert {c c' : Core} {t k fd ev mode} : c.table k fd = none →
      c'.pk = (fun y => if y = c.next then newPkt k fd ev mode else c.pk y) → c'.next = c.next + 1 →
      c'.table = (fun k' x => if k' = k ∧ x = fd then some c.next else c.table k' x) →
      okCall (.add k fd ev mode) = true →
      Eff c (.inserted t k fd c.next ev mode) c'
  | remove {c c' : Core} {t k fd p} : c.table k fd = some p → c'.pk = c.pk → c'.next = c.next →
      c'.table = (fun k' x => if k' = k ∧ x = fd then none else c.table k' x) → Eff c (.removed t k fd p) c'
  | set {c : Core} {t k fd p ev mode} : okCall (.modify k fd ev mode) = true →
      Eff c (.changed t k fd p ev mode) (setEvents c p ev mode).2
  | del {c : Core} {t k fd p fault} : Eff c (.deleted t k fd p (beginDelete fault c p).1) (beginDelete fault c p).2
  | update {c : Core} {p fault o} : Quiet o → Eff c o (update fault c p).2.1
  | feed {c : Core} {p k fd ev o} : (feed c p).1 = .update k fd ev →
      o = (match ev with | some ev => .deliver k fd p ev | none => .tau) → Eff c o (feed c p).2
  | feedQuiet {c : Core} {p o} : (∀ k fd ev, (feed c p).1 ≠ .update k fd ev) → Quiet o → Eff c o (feed c p).2
  /-- `update` failed and a remaining entry is dropped -/
  | drop {c : Core} {p o} : Quiet o → Eff c o (dropEntries c [p])
  | packet {c c' : Core} {ev} : c'.pk = (fun y => if y = c.next then .custom ev else c.pk y) → c'.next = c.next + 1 →
      c'.table = c.table → buildable ev = true → Eff c .tau c'
  | complete {c c' : Core} {p k mask cancelling r} : c.pk p = .socket k → k.op = .inFlight mask cancelling →
      (∀ n events, r = .ok n events → events &&& ~~~mask = 0#32) →
      c'.pk = (setPk c p (.socket { k with op := .done r })).pk → c'.next = c.next → c'.table = c.table → Eff c .tau c'
  | wtb {c c' : Core} {p w status} : c.pk p = .waitable w →
      c'.pk = (setPk c p (.waitable { w with registered := false, status })).pk → c'.next = c.next → c'.table = c.table → Eff c .tau c'

theorem step_eff {threads s a s' o}
    (hb : ∀ t call, (s.pc t).call? = some call → okCall call = true)
    (hs : step threads s a = some (s', o)) : Eff s.c o s'.c := by
  have hu : ∀ fault u c' out o, ustep fault s.c u = (c', out, o) →
      Eff s.c o c' := by
    intro fault u c' out o h
    cases u with
    | load p => simp only [ustep] at h; cases h; exact .quiet rfl rfl rfl trivial
    | run p => simp only [ustep] at h; cases h; exact .update (quiet_updateObs _ _)
    | push p =>
      simp only [ustep] at h
      split at h <;> (cases h; exact .quiet rfl rfl rfl trivial)
    | pop p n =>
      simp only [ustep] at h
      split at h <;> (cases h; exact .quiet rfl rfl rfl trivial)
    | drain p n q => simp only [ustep] at h; cases h; exact .update (quiet_updateObs _ _)
  cases a with
  | call t call =>
    simp only [step] at hs
    repeat' split at hs
    all_goals cases hs
    all_goals exact .quiet rfl rfl rfl trivial
  | go t fault =>
    simp only [step, goCall] at hs
    split at hs
    · cases hs
    split at hs
    · split at hs <;> (cases hs; exact .quiet rfl rfl rfl trivial)
    · rename_i call hpc
      have hcb := hb t call (by rw [hpc]; rfl)
      split at hs
      · split at hs
        · cases hs; exact .quiet rfl rfl rfl trivial
        · rename_i ht; cases hs; exact .insert ht rfl rfl rfl hcb
      · split at hs <;> (cases hs; exact .quiet rfl rfl rfl trivial)
      · split at hs
        · cases hs; exact .quiet rfl rfl rfl trivial
        · rename_i ht; cases hs; exact .remove ht rfl rfl rfl
    · rename_i hpc
      split at hs
      · cases hs; exact .set (hb t _ (by rw [hpc]; rfl))
      · cases hs
    · cases hs; exact .del
    · split at hs
      · rename_i h; cases hs; exact hu _ _ _ _ _ h
      · rename_i h; cases hs; exact hu _ _ _ _ _ h
    · cases hs; exact .quiet rfl rfl rfl trivial
    · cases hs
  | newPacket ev =>
    simp only [step] at hs
    split at hs
    · cases hs
    · rename_i h; cases hs; exact .packet rfl rfl rfl (by simpa using h)
  | post p fault =>
    simp only [step] at hs
    repeat' split at hs
    all_goals cases hs
    all_goals exact .quiet rfl rfl rfl trivial
  | notifyCas t =>
    simp only [step] at hs
    repeat' split at hs
    all_goals cases hs
    all_goals exact .quiet rfl rfl rfl trivial
  | notifyPost t fault =>
    simp only [step] at hs
    repeat' split at hs
    all_goals cases hs
    all_goals exact .quiet rfl rfl rfl trivial
  | waitBegin timed cap =>
    simp only [step] at hs
    repeat' split at hs
    all_goals cases hs
    all_goals exact .quiet rfl rfl rfl trivial
  | waitBusy =>
    simp only [step] at hs
    repeat' split at hs
    all_goals cases hs
    all_goals exact .quiet rfl rfl rfl trivial
  | wait fault =>
    simp only [step, goWait] at hs
    split at hs
    · cases hs; exact .quiet rfl rfl rfl trivial
    · cases hs; exact .quiet rfl rfl rfl trivial
    · split at hs <;> (cases hs; exact .quiet rfl rfl rfl trivial)
    · rename_i q _
      have e : ∀ r c' m, update fault s.c q = (r, c', m) → Eff s.c (updateObs q m) c' := by
        intro r c' m h
        have := Eff.update (c := s.c) (p := q) (fault := fault) (quiet_updateObs q m)
        rw [h] at this; exact this
      split at hs <;> (rename_i h; cases hs; exact e _ _ _ h)
    · cases hs; exact .quiet rfl rfl rfl trivial
    · unfold waitFail at hs
      split at hs <;> (cases hs; exact .quiet rfl rfl rfl trivial)
    · unfold waitFail at hs
      split at hs <;> (cases hs; exact .quiet rfl rfl rfl trivial)
    · cases hs; exact .drop trivial
    · rename_i p batch _
      split at hs
      · rename_i h; cases hs
        have := Eff.feedQuiet (c := s.c) (p := p) (o := .tau) (by rw [h]; nofun) trivial
        rw [h] at this; exact this
      · rename_i h; cases hs
        have := Eff.feedQuiet (c := s.c) (p := p) (o := .tau) (by rw [h]; nofun) trivial
        rw [h] at this; exact this
      · rename_i ev _ h; cases hs
        have := Eff.feedQuiet (c := s.c) (p := p) (o := .received p ev) (by rw [h]; nofun) trivial
        rw [h] at this; exact this
      · rename_i h; cases hs
        have := Eff.feedQuiet (c := s.c) (p := p) (o := .tau) (by rw [h]; nofun) trivial
        rw [h] at this; exact this
      · rename_i k fd ev c h; cases hs
        have := Eff.feed (c := s.c) (p := p) (k := k) (fd := fd) (ev := ev) (by rw [h]) rfl
        rw [h] at this; exact this
    · rename_i w batch u ev _
      split at hs
      · rename_i h; cases hs; exact hu _ _ _ _ _ h
      · rename_i h; cases hs; exact hu _ _ _ _ _ h
      · rename_i h; cases hs; exact hu _ _ _ _ _ h
    · cases hs; exact .quiet rfl rfl rfl trivial
    · cases hs
  | get =>
    simp only [step] at hs
    repeat' split at hs
    all_goals cases hs
    all_goals exact .quiet rfl rfl rfl trivial
  | getFail e =>
    simp only [step] at hs
    repeat' split at hs
    all_goals cases hs
    all_goals exact .quiet rfl rfl rfl trivial
  | decide e =>
    simp only [step] at hs
    repeat' split at hs
    all_goals cases hs
    all_goals exact .quiet rfl rfl rfl trivial
  | complete p r =>
    simp only [step] at hs
    split at hs
    · rename_i k hk
      split at hs
      · rename_i mask cancelling hop
        split at hs
        · rename_i hr; cases hs
          refine .complete hk hop ?_ rfl rfl rfl
          intro n events h; subst h; simpa [possible] using hr
        · cases hs
      · cases hs
    · cases hs
  | fire p =>
    simp only [step] at hs
    split at hs
    · rename_i w hw
      split at hs
      · cases hs; exact .wtb (status := w.status) hw rfl rfl rfl
      · cases hs
    · cases hs
  | callback p =>
    simp only [step] at hs
    split at hs
    · rename_i w hw
      split at hs
      · cases hs; exact .wtb hw rfl rfl rfl
      · cases hs
    · cases hs
  | callbackPost p fault =>
    simp only [step] at hs
    split at hs
    · cases hs
      refine .quiet ?_ ?_ ?_ trivial <;> (dsimp only; split <;> rfl)
    · cases hs

theorem upd_self (pc : Tid → Pc) (t : Tid) (p : Pc) : upd pc t p t = p := by simp [upd]
theorem upd_other (pc : Tid → Pc) {t u : Tid} (p : Pc) (h : u ≠ t) : upd pc t p u = pc u := by simp [upd, h]

/-- How a thread's position changes: only one thread moves, within its call, or into one that passed the checks. -/
theorem step_pc {threads s a s' o} (hs : step threads s a = some (s', o)) :
    s'.pc = s.pc ∨ ∃ t p, s'.pc = upd s.pc t p ∧
      (p.call? = none ∨ p.call? = (s.pc t).call? ∨ ∃ call, p.call? = some call ∧ okCall call = true) := by
  cases a with
  | call t call =>
    simp only [step] at hs
    split at hs
    · cases hs
    split at hs
    · split at hs
      · cases hs
      split at hs
      · cases hs; exact .inl rfl
      split at hs
      · cases hs; exact .inl rfl
      cases hs
      refine .inr ⟨t, _, rfl, .inr (.inr ⟨call, ?_, ?_⟩)⟩
      · split <;> rfl
      · simp_all [okCall]
    · cases hs
  | go t fault =>
    simp only [step, goCall] at hs
    split at hs
    · cases hs
    repeat' split at hs
    all_goals cases hs
    all_goals refine .inr ⟨t, _, rfl, ?_⟩
    all_goals first
      | exact .inl rfl
      | (refine .inr (.inl ?_); simp_all [Pc.call?]; done)
      | (refine .inr (.inl ?_); split <;> simp_all [Pc.call?]; done)
  | newPacket ev => simp only [step] at hs; repeat' split at hs
                    all_goals cases hs
                    all_goals exact .inl rfl
  | post p fault => simp only [step] at hs; repeat' split at hs
                    all_goals cases hs
                    all_goals exact .inl rfl
  | notifyCas t => simp only [step] at hs; repeat' split at hs
                   all_goals cases hs
                   all_goals first | exact .inl rfl | exact .inr ⟨t, _, rfl, .inl rfl⟩
  | notifyPost t fault => simp only [step] at hs; repeat' split at hs
                          all_goals cases hs
                          all_goals first | exact .inl rfl | exact .inr ⟨t, _, rfl, .inl rfl⟩
  | waitBegin timed cap => simp only [step] at hs; repeat' split at hs
                           all_goals cases hs
                           all_goals exact .inl rfl
  | waitBusy => simp only [step] at hs; repeat' split at hs
                all_goals cases hs
                all_goals exact .inl rfl
  | wait fault =>
    simp only [step, goWait, waitFail] at hs
    repeat' split at hs
    all_goals cases hs
    all_goals exact .inl rfl
  | get => simp only [step] at hs; repeat' split at hs
           all_goals cases hs
           all_goals exact .inl rfl
  | getFail e => simp only [step] at hs; repeat' split at hs
                 all_goals cases hs
                 all_goals exact .inl rfl
  | decide e => simp only [step] at hs; repeat' split at hs
                all_goals cases hs
                all_goals exact .inl rfl
  | complete p r => simp only [step] at hs; repeat' split at hs
                    all_goals cases hs
                    all_goals exact .inl rfl
  | fire p => simp only [step] at hs; repeat' split at hs
              all_goals cases hs
              all_goals exact .inl rfl
  | callback p => simp only [step] at hs; repeat' split at hs
                  all_goals cases hs
                  all_goals exact .inl rfl
  | callbackPost p fault => simp only [step] at hs; repeat' split at hs
                            all_goals cases hs
                            all_goals exact .inl rfl

theorem reach_call {threads P s tr} (h : Reach threads P s tr) : ∀ t call, (s.pc t).call? = some call → okCall call = true := by
  induction h with
  | init => intro t call h; cases h
  | step _ _ hs ih =>
    intro t call hc
    rcases step_pc hs with h | ⟨u, p, h, hp⟩
    · rw [h] at hc; exact ih t call hc
    · rw [h] at hc
      by_cases e : t = u
      · subst e
        rw [upd_self] at hc
        rcases hp with hp | hp | ⟨c, hp, hok⟩
        · rw [hp] at hc; cases hc
        · rw [hp] at hc; exact ih t call hc
        · rw [hp] at hc; cases hc; exact hok
      · rw [upd_other _ _ e] at hc; exact ih t call hc

theorem reach_eff {threads P s tr a s' o} (h : Reach threads P s tr) (hs : step threads s a = some (s', o)) : Eff s.c o s'.c :=
  step_eff (reach_call h) hs

end Polling.IocpM
