import Verif.Proof.IocpQueue

/-! Every registration whose interest is not what the OS watches for is about to be updated. -/

namespace Polling.IocpM
open Iocp IocpSpec

/-- The packets that a thread inside `update_packet` is going to update. -/
def UPc.holds : UPc → PId → Prop
  | .load p, x | .run p, x | .push p, x | .pop p _, x => x = p
  | .drain p _ q, x => x = p ∨ x = q

def UOut.holds : UOut → PId → Prop
  | .more u, x => u.holds x
  | .done _, _ => False

def Phase.holds : Phase → PId → Prop
  | .upd _ q, x => x = q
  | .feedUpd _ _ u _, x => u.holds x
  | _, _ => False

def Pc.holds : Pc → PId → Prop
  | .upd _ u, x => u.holds x
  | _, _ => False

/-- The registration is in the queue of updates, or a thread is about to update it. -/
def Holder (s : S) (x : PId) : Prop := x ∈ s.c.pending ∨ (∃ t, (s.pc t).holds x) ∨ s.phase.holds x

theorem coherent_none (u : UPc) : coherent none u = none := by cases u <;> rfl

theorem ustep_holder {fault c u c' out o} (hu : ustep fault c u = (c', out, o)) (x : PId) (h : x ∈ c'.pending ∨ out.holds x) :
    x ∈ c.pending ∨ u.holds x := by
  cases u with
  | load p =>
    simp only [ustep] at hu; cases hu
    rcases h with h | h
    · exact .inl h
    · right
      revert h
      show UPc.holds (if c.polling != fault.isSome then .run p else .push p) x → _
      split <;> exact id
  | run p =>
    simp only [ustep] at hu; cases hu
    rcases h with h | h
    · rw [(update_frame fault c p).2.2.1] at h; exact .inl h
    · exact absurd h id
  | push p =>
    simp only [ustep] at hu; split at hu
    · cases hu
      rcases h with h | h
      · simp only [List.mem_append, List.mem_singleton] at h
        exact h
      · exact absurd h id
    · cases hu; exact h
  | pop p n =>
    simp only [ustep] at hu; split at hu
    · rename_i heq
      cases hu
      rw [heq]
      rcases h with h | h
      · exact .inl (List.mem_cons_of_mem _ h)
      · rcases h with h | h
        · exact .inr h
        · exact .inl (by rw [h]; exact List.mem_cons_self)
    · cases hu; exact h
  | drain p n q =>
    simp only [ustep] at hu
    injection hu with h1 h2; injection h2 with h3 h4
    subst h1
    rcases h with h | h
    · rw [(update_frame fault c q).2.2.1] at h; exact .inl h
    · subst h3
      revert h
      split
      · intro h; exact .inr (.inl h)
      · intro h; exact absurd h id

theorem upd_holds {pc : Tid → Pc} {t : Tid} {p : Pc} {x : PId} (h : ∃ u, (upd pc t p u).holds x) : p.holds x ∨ ∃ u, (pc u).holds x := by
  obtain ⟨u, h⟩ := h
  by_cases e : u = t
  · subst e; rw [upd_self] at h; exact .inl h
  · rw [upd_other _ _ e] at h; exact .inr ⟨u, h⟩

theorem Holder.of {s s' : S} {x : PId} (h1 : x ∈ s'.c.pending → Holder s x) (h2 : ∀ t, (s'.pc t).holds x → Holder s x)
    (h3 : s'.phase.holds x → Holder s x) : Holder s' x → Holder s x := by
  rintro (h | ⟨t, h⟩ | h)
  · exact h1 h
  · exact h2 t h
  · exact h3 h

/-- Who is going to be updated was before, or is a registration. -/
theorem step_holder {n P s tr a s' o} (hr : Reach n P s tr) (hs : step n s a = some (s', o)) (x : PId) (h : Holder s' x) :
    Holder s x ∨ ident (s'.c.pk x) ≠ none := by
  have keep : s'.c.pending = s.c.pending → s'.pc = s.pc → s'.phase = s.phase → Holder s x ∨ ident (s'.c.pk x) ≠ none := by
    intro h1 h2 h3
    unfold Holder at h
    rw [h1, h2, h3] at h
    exact .inl h
  have quietPc : ∀ t p, s'.c.pending = s.c.pending → s'.pc = upd s.pc t p → s'.phase = s.phase → ¬ p.holds x →
      Holder s x ∨ ident (s'.c.pk x) ≠ none := by
    intro t p h1 h2 h3 h4
    unfold Holder at h
    rw [h1, h2, h3] at h
    rcases h with h | h | h
    · exact .inl (.inl h)
    · rcases upd_holds h with h | h
      · exact absurd h h4
      · exact .inl (.inr (.inl h))
    · exact .inl (.inr (.inr h))
  have newPc : ∀ t p, s'.c.pending = s.c.pending → s'.pc = upd s.pc t p → s'.phase = s.phase →
      (p.holds x → ident (s'.c.pk x) ≠ none) → Holder s x ∨ ident (s'.c.pk x) ≠ none := by
    intro t p h1 h2 h3 h4
    by_cases h5 : p.holds x
    · exact .inr (h4 h5)
    · exact quietPc t p h1 h2 h3 h5
  have quietPh : s'.c.pending = s.c.pending → s'.pc = s.pc → ¬ s'.phase.holds x → Holder s x ∨ ident (s'.c.pk x) ≠ none := by
    intro h1 h2 h3
    unfold Holder at h
    rw [h1, h2] at h
    rcases h with h | h | h
    · exact .inl (.inl h)
    · exact .inl (.inr (.inl h))
    · exact absurd h h3
  cases a with
  | call t call =>
    simp only [step] at hs
    split at hs
    · cases hs
    split at hs
    · split at hs
      · cases hs
      split at hs
      · cases hs; exact keep rfl rfl rfl
      split at hs
      · cases hs; exact keep rfl rfl rfl
      cases hs
      refine quietPc t _ rfl rfl rfl ?_
      split <;> exact id
    · cases hs
  | go t fault =>
    simp only [step, goCall] at hs
    split at hs
    · cases hs
    split at hs
    · split at hs <;> (cases hs; exact quietPc t _ rfl rfl rfl id)
    · split at hs
      · split at hs
        · cases hs; exact quietPc t _ rfl rfl rfl id
        · cases hs
          refine newPc t _ rfl rfl rfl ?_
          intro h; cases h
          dsimp only; rw [setPk_self]
          unfold newPkt; split <;> nofun
      · split at hs <;> (cases hs; exact quietPc t _ rfl rfl rfl id)
      · split at hs <;> (cases hs; exact quietPc t _ rfl rfl rfl id)
    · rename_i call p hpc
      split at hs
      · have ho := reach_own hr t _ _ (by rw [hpc]; rfl)
        cases hs
        refine newPc t _ (setEvents_frame _ _ _ _).1 rfl rfl ?_
        intro h
        have : x = p := by
          revert h; split
          · exact id
          · exact fun h => absurd h id
        subst this
        have := ident_eff (reach_ti hr).low (Eff.set (c := s.c) (t := t) (p := x) (reach_call hr t _ (by rw [hpc]; rfl))) x ho
        dsimp only
        rw [this]; nofun
      · cases hs
    · cases hs; exact quietPc t _ (beginDelete_frame _ _ _).2.2.1 rfl rfl id
    · rename_i call u hpc
      have key : ∀ c' out o (p : Pc), ustep fault s.c u = (c', out, o) → (p.holds x → out.holds x) →
          Holder { s with c := c', pc := upd s.pc t p } x → Holder s x := by
        intro c' out o p hu hout hh
        have hx := ustep_holder hu x
        have hin : x ∈ s.c.pending ∨ u.holds x → Holder s x := by
          rintro (h | h)
          · exact .inl h
          · exact .inr (.inl ⟨t, by rw [hpc]; exact h⟩)
        rcases hh with hh | hh | hh
        · exact hin (hx (.inl hh))
        · rcases upd_holds hh with hh | hh
          · exact hin (hx (.inr (hout hh)))
          · exact .inr (.inl hh)
        · exact .inr (.inr hh)
      split at hs
      · rename_i hu; cases hs; exact .inl (key _ _ _ _ hu id h)
      · rename_i hu; cases hs; exact .inl (key _ _ _ _ hu (fun h => absurd h id) h)
    · cases hs; exact quietPc t _ rfl rfl rfl id
    · cases hs
  | wait fault =>
    simp only [step, goWait] at hs
    split at hs
    · cases hs; exact quietPh rfl rfl id
    · cases hs; exact quietPh rfl rfl id
    · split at hs
      · rename_i heq; cases hs
        left
        rcases h with h | h | h
        · exact .inl (by rw [heq]; exact List.mem_cons_of_mem _ h)
        · exact .inr (.inl h)
        · exact .inl (by rw [heq, show x = _ from h]; exact List.mem_cons_self)
      · cases hs; exact quietPh rfl rfl id
    · rename_i w q hph
      have hf := (update_frame fault s.c q).2.2.1
      split at hs
      · rename_i he; rw [he] at hf; cases hs; exact quietPh hf rfl id
      · rename_i he; rw [he] at hf; cases hs; exact quietPh hf rfl id
    · cases hs; exact quietPh rfl rfl id
    · unfold waitFail at hs
      split at hs <;> (cases hs; exact quietPh rfl rfl id)
    · unfold waitFail at hs
      split at hs <;> (cases hs; exact quietPh rfl rfl id)
    · rename_i p batch _; cases hs; exact quietPh (dropEntries_rest s.c [p]).1 rfl id
    · rename_i w p batch hph
      have hf := (feed_frame s.c p).2.2.1
      split at hs
      · rename_i he; rw [he] at hf; cases hs; exact quietPh hf rfl id
      · rename_i he; rw [he] at hf; cases hs; exact quietPh hf rfl id
      · rename_i he; rw [he] at hf; cases hs; exact quietPh hf rfl id
      · rename_i he; rw [he] at hf; cases hs; exact quietPh hf rfl id
      · rename_i k fd ev c he
        have hid : ident (c.pk p) = ident (s.c.pk p) := by
          have := ident_feed s.c p p
          rw [he] at this; exact this
        rw [he] at hf; cases hs
        by_cases hx : x = p
        · right
          subst hx
          dsimp only
          rw [hid]
          rcases feed_cases s.c x with ⟨s, r, e1, e2, e3, e4⟩ | ⟨s, r, e1, e2, e3, e4, e5⟩ | ⟨s, r, e1, e2, e3, e4, e5⟩ | ⟨w, e1, e5⟩ | ⟨e, e1, e2⟩ |
            ⟨e1, e2⟩ | ⟨e1, e2⟩
          · rw [e4] at he; cases he
          · rw [e5] at he; cases he
          · rw [e1]; nofun
          · rw [e1]; nofun
          · rw [e2] at he; cases he
          · rw [e2] at he; cases he
          · rw [e2] at he; cases he
        · exact quietPh hf rfl hx
    · rename_i w batch u ev hph
      have hin : x ∈ s.c.pending ∨ u.holds x → Holder s x := by
        rintro (h | h)
        · exact .inl h
        · exact .inr (.inr (by rw [hph]; exact h))
      split at hs
      · rename_i hu; cases hs
        left
        rcases h with h | h | h
        · exact hin (ustep_holder hu x (.inl h))
        · exact .inr (.inl h)
        · exact hin (ustep_holder hu x (.inr h))
      · rename_i hu; cases hs
        left
        rcases h with h | h | h
        · exact hin (ustep_holder hu x (.inl h))
        · exact .inr (.inl h)
        · exact absurd h id
      · rename_i hu; cases hs; exact quietPh (ustep_err hu) rfl id
    · cases hs; exact quietPh rfl rfl id
    · cases hs
  | newPacket _ => simp only [step] at hs; repeat' split at hs
                   all_goals cases hs
                   all_goals exact keep rfl rfl rfl
  | post _ _ => simp only [step] at hs; repeat' split at hs
                all_goals cases hs
                all_goals exact keep rfl rfl rfl
  | notifyCas t => simp only [step] at hs; repeat' split at hs
                   all_goals cases hs
                   · exact keep rfl rfl rfl
                   · exact quietPc t _ rfl rfl rfl id
  | notifyPost t _ => simp only [step] at hs; repeat' split at hs
                      all_goals cases hs
                      all_goals exact quietPc t _ rfl rfl rfl id
  | waitBegin _ _ => simp only [step] at hs; repeat' split at hs
                     all_goals cases hs
                     all_goals exact quietPh rfl rfl id
  | waitBusy => simp only [step] at hs; repeat' split at hs
                all_goals cases hs
                all_goals exact keep rfl rfl rfl
  | get => simp only [step] at hs; repeat' split at hs
           all_goals cases hs
           all_goals exact quietPh rfl rfl id
  | getFail _ => simp only [step] at hs; repeat' split at hs
                 all_goals cases hs
                 all_goals exact quietPh rfl rfl id
  | decide _ => simp only [step] at hs; repeat' split at hs
                all_goals cases hs
                all_goals exact quietPh rfl rfl id
  | complete _ _ => simp only [step] at hs; repeat' split at hs
                    all_goals cases hs
                    all_goals exact keep rfl rfl rfl
  | fire _ => simp only [step] at hs; repeat' split at hs
              all_goals cases hs
              all_goals exact keep rfl rfl rfl
  | callback _ => simp only [step] at hs; repeat' split at hs
                  all_goals cases hs
                  all_goals exact keep rfl rfl rfl
  | callbackPost _ _ => simp only [step] at hs; repeat' split at hs
                        all_goals cases hs
                        all_goals exact keep rfl rfl rfl

/-- Only registrations are updated. -/
theorem reach_holder {n P s tr} (h : Reach n P s tr) : ∀ x, Holder s x → ident (s.c.pk x) ≠ none := by
  induction h with
  | init =>
    rintro x (h | ⟨t, h⟩ | h)
    · cases h
    · exact absurd h id
    · exact absurd h id
  | @step s tr a s' o hr hp hs ih =>
    intro x hx
    rcases step_holder hr hs x hx with h | h
    · have := ih x h
      cases hi : ident (s.c.pk x) with
      | none => exact absurd hi this
      | some y => rw [ident_eff (reach_ti hr).low (reach_eff hr hs) x hi]; nofun
    · exact h

/-- An update that the OS does not refuse works. -/
theorem update_ok {c p} (h : ident (c.pk p) ≠ none) : (update none c p).1 = .ok := by
  unfold update
  cases hp : c.pk p with
  | socket k =>
    dsimp only
    unfold updateSock
    split
    · rfl
    split
    · split
      · rfl
      · rfl
    · rfl
    · unfold startPoll; dsimp only; split <;> rfl
  | waitable w =>
    dsimp only
    unfold updateWtb
    repeat' split
    all_goals first | rfl | (rename_i hh; cases hh)
  | _ => rw [hp] at h; exact absurd rfl h

/-- The OS refuses no AFD operation, cancellation, registration of a wait, or packet posted by the callback of one.  (The load of
`polling` may be stale.) -/
def Accepts : S → Act → Prop
  | s, .go t (some _) => (∃ call, s.pc t = .prepare call) ∨ ∃ call p, s.pc t = .upd call (.load p)
  | _, .wait (some _) => False
  | _, .callbackPost _ (some _) => False
  | _, _ => True

/-- In a step of `update_packet` the OS refuses nothing; the load of `polling` may be stale. -/
def Calm (fault : Option Err) (u : UPc) : Prop := fault = none ∨ ∃ p, u = .load p

theorem calm_none {u : UPc} : Calm none u := .inl rfl

theorem Calm.none {fault u} (h : Calm fault u) (hu : ∀ p, u ≠ .load p) : fault = none :=
  h.resolve_right fun ⟨p, e⟩ => hu p e

theorem accepts_calm {s : S} {t fault call u} (h : Accepts s (.go t fault)) (hpc : s.pc t = .upd call u) : Calm fault u := by
  cases fault with
  | none => exact .inl rfl
  | some e =>
    rcases h with ⟨c, hc⟩ | ⟨c, p, hc⟩
    · rw [hpc] at hc; cases hc
    · rw [hpc] at hc; cases hc; exact .inr ⟨p, rfl⟩

theorem calm_coherent {u : UPc} : Calm (coherent none u) u := by rw [coherent_none]; exact calm_none

theorem ustep_accepts {fault c u c' e o} (hf : Calm fault u) (h : ∀ x, u.holds x → ident (c.pk x) ≠ none) (hu : ustep fault c u = (c', .done (.err e), o)) : False := by
  cases u with
  | load p => simp only [ustep] at hu; cases hu
  | run p =>
    cases hf.none nofun
    have := update_ok (h p rfl)
    simp only [ustep] at hu
    injection hu with h1 h2; injection h2 with h3 h4; rw [this] at h3; cases h3
  | push p => simp only [ustep] at hu; split at hu <;> cases hu
  | pop p n => simp only [ustep] at hu; split at hu <;> cases hu
  | drain p n q =>
    cases hf.none nofun
    have := update_ok (h q (.inr rfl))
    simp only [ustep] at hu
    injection hu with h1 h2; injection h2 with h3 h4; rw [this] at h3; cases h3

/-- A registration whose interest is not what the OS watches for. -/
def Uns : Pkt → Prop
  | .socket k => k.waitingOnDelete = false ∧ (k.status = .idle ∨ ∃ f, k.status = .polling f ∧ f ≠ k.mask)
  | .waitable w => w.status = .idle ∧ (w.interest.readable = true ∨ w.interest.writable = true)
  | _ => False

/-- After an update the OS watches for what it should. -/
theorem update_uns {c p q} (h : Uns ((update none c p).2.1.pk q)) : q ≠ p ∧ Uns (c.pk q) := by
  by_cases e : q = p
  · exfalso
    subst e
    rw [update_pkt] at h
    split at h
    · rename_i k hk
      obtain ⟨h1, h2⟩ := h
      unfold updateSock at h1 h2
      split at h1
      · rename_i hw; dsimp only at h1; rw [hw] at h1; cases h1
      rename_i hw
      rw [if_neg hw] at h2
      split at h2
      · rename_i flags hst
        split at h2
        · dsimp only at h2
          unfold cancel at h2
          dsimp only at h2; rcases h2 with h2 | ⟨f, h2, _⟩ <;> cases h2
        · rename_i hm
          dsimp only at h2
          rcases h2 with h2 | ⟨f, h2, h3⟩
          · rw [hst] at h2; cases h2
          · rw [hst] at h2; cases h2
            exact hm (Ne.symm h3)
      · rename_i hst
        dsimp only at h2
        rcases h2 with h2 | ⟨f, h2, h3⟩ <;> (rw [hst] at h2; cases h2)
      · unfold startPoll at h2
        dsimp only at h2
        split at h2
        · rcases h2 with h2 | ⟨f, h2, h3⟩
          · cases h2
          · cases h2; exact h3 rfl
        · dsimp only at h2
          rcases h2 with h2 | ⟨f, h2, h3⟩
          · cases h2
          · cases h2; exact h3 rfl
    · rename_i w hw
      obtain ⟨h1, h2⟩ := h
      unfold updateWtb at h1 h2
      split at h2
      · rename_i hi
        dsimp only at h2
        rcases h2 with h2 | h2 <;> simp [h2] at hi
      · rename_i hi
        rw [if_neg hi] at h1
        split at h2
        · rename_i hne
          rw [if_pos hne] at h1
          exact hne h1
        · rename_i hne
          rw [if_neg hne] at h1
          cases h1
    · rename_i h1 h2
      revert h
      cases hq : c.pk q with
      | socket k => exact absurd hq (h1 k)
      | waitable w => exact absurd hq (h2 w)
      | _ => exact id
  · rw [(update_frame none c p).2.2.2.2.2 q e] at h
    exact ⟨e, h⟩

theorem ustep_uns {fault c u c' out o} (hf : Calm fault u) (hu : ustep fault c u = (c', out, o)) (x : PId) (h : Uns (c'.pk x)) :
    Uns (c.pk x) ∧ (x ∈ c.pending ∨ u.holds x → x ∈ c'.pending ∨ out.holds x ∨ ∃ e, out = .done (.err e)) := by
  cases u with
  | load p =>
    simp only [ustep] at hu; cases hu
    refine ⟨h, ?_⟩
    rintro (h | h)
    · exact .inl h
    · right; left
      show UPc.holds (if c.polling != fault.isSome then .run p else .push p) x
      split <;> exact h
  | run p =>
    cases hf.none nofun
    simp only [ustep] at hu; cases hu
    obtain ⟨h1, h2⟩ := update_uns h
    refine ⟨h2, ?_⟩
    rintro (h | h)
    · rw [(update_frame none c p).2.2.1]; exact .inl h
    · exact absurd h h1
  | push p =>
    simp only [ustep] at hu; split at hu
    · cases hu
      refine ⟨h, ?_⟩
      rintro (h | h)
      · left; simp [h]
      · left; simp [show x = p from h]
    · cases hu
      refine ⟨h, ?_⟩
      rintro (h | h)
      · exact .inl h
      · exact .inr (.inl h)
  | pop p n =>
    simp only [ustep] at hu; split at hu
    · rename_i heq
      cases hu
      refine ⟨h, ?_⟩
      rw [heq]
      rintro (h | h)
      · rcases List.mem_cons.1 h with h | h
        · exact .inr (.inl (.inr h))
        · exact .inl h
      · exact .inr (.inl (.inl h))
    · cases hu
      refine ⟨h, ?_⟩
      rintro (h | h)
      · exact .inl h
      · exact .inr (.inl h)
  | drain p n q =>
    cases hf.none nofun
    simp only [ustep] at hu
    injection hu with h1 h2; injection h2 with h3 h4
    subst h1
    obtain ⟨h5, h6⟩ := update_uns h
    refine ⟨h6, ?_⟩
    rintro (h | h)
    · rw [(update_frame none c q).2.2.1]; exact .inl h
    · right
      rcases h with h | h
      · subst h3
        split
        · exact .inl h
        · exact .inr ⟨_, rfl⟩
      · exact absurd h h5

/-- What is on its way to `wait`. -/
def OnWay (s : S) (x : PId) : Prop := x ∈ s.cbPost ∨ x ∈ entries s

/-- The registration is going to be updated; for a waitable, possibly after `wait` found its event. -/
def Covered (s : S) (x : PId) : Prop := Holder s x ∨ (kind (s.c.pk x) = .wtb ∧ OnWay s x)

theorem holder_pc {s s' : S} {t : Tid} {p : Pc} {x : PId} (h1 : s'.c.pending = s.c.pending) (h2 : s'.pc = upd s.pc t p) (h3 : s'.phase = s.phase)
    (h4 : (s.pc t).holds x → p.holds x) (h : Holder s x) : Holder s' x := by
  unfold Holder
  rw [h1, h2, h3]
  rcases h with h | ⟨u, h⟩ | h
  · exact .inl h
  · right; left
    by_cases e : u = t
    · subst e; exact ⟨u, by rw [upd_self]; exact h4 h⟩
    · exact ⟨u, by rw [upd_other _ _ e]; exact h⟩
  · exact .inr (.inr h)

/-- The OS refuses no operation while `wait` processes completions.  (An operation is only started there if the queue of
updates is full, `IocpM.failed_full`.) -/
def NoFail : S → Act → Prop
  | s, .wait (some _) => ∀ w b p m q ev, s.phase ≠ .feedUpd w b (.drain p m q) ev
  | _, _ => True

theorem noFail {n P s tr} (hP : ∀ s a, P s a → NoFail s a) (h : Reach n P s tr) : ∀ w e b, s.phase ≠ .drain w e b := by
  induction h with
  | init => nofun
  | @step s tr a s' o hr hp hs ih =>
    intro w e l hf
    rcases step_drain hs hf with ⟨l', hd⟩ | ⟨b, u, ev, hph⟩
    · exact ih _ _ _ hd
    · obtain ⟨p, m, q, fault, rfl, rfl, he⟩ := failed_full hr hph hs hf
      cases fault with
      | some e => exact hP _ _ hp _ _ _ _ _ _ hph
      | none =>
        have := update_ok (reach_holder hr q (.inr (.inr (by rw [hph]; exact .inr rfl))))
        rw [this] at he; cases he

/-- One step, if the OS refuses nothing. -/
theorem cov_step {n P s tr a s' o} (hr : Reach n P s tr) (hnd : ∀ w e b, s.phase ≠ .drain w e b) (hA : Accepts s a) (hs : step n s a = some (s', o))
    (ih : ∀ x, Uns (s.c.pk x) → Covered s x) (x : PId) (hu' : Uns (s'.c.pk x)) : Covered s' x := by
  have hent := reach_ent hr hs
  have hei := reach_ei hr
  have hkw := fun h => ent_wtb (p := x) hei hent h
  have hhold := reach_holder hr
  have go : Uns (s.c.pk x) → (Holder s x → Holder s' x) → (kind (s.c.pk x) = .wtb → OnWay s x → OnWay s' x ∨ Holder s' x) → Covered s' x := by
    intro h1 h2 h3
    rcases ih x h1 with h | ⟨h4, h5⟩
    · exact .inl (h2 h)
    · rcases h3 h4 h5 with h | h
      · exact .inr ⟨hkw h4, h⟩
      · exact .inl h
  have way : entries s' = entries s → s'.cbPost = s.cbPost → OnWay s x → OnWay s' x ∨ Holder s' x := by
    intro h1 h2 h
    unfold OnWay at *
    rw [h1, h2]; exact .inl h
  have keep : s'.c.pk = s.c.pk → s'.c.pending = s.c.pending → s'.pc = s.pc → s'.phase = s.phase → s'.cbPost = s.cbPost →
      entries s' = entries s → Covered s' x := by
    intro h0 h1 h2 h3 h4 h5
    rw [h0] at hu'
    exact go hu' (fun h => by unfold Holder at *; rw [h1, h2, h3]; exact h) (fun _ => way h5 h4)
  have keepPc : ∀ t p, s'.c.pk = s.c.pk → s'.c.pending = s.c.pending → s'.pc = upd s.pc t p → s'.phase = s.phase → s'.cbPost = s.cbPost →
      entries s' = entries s → (s.pc t).call?.isSome = true ∨ True → ((s.pc t).holds x → p.holds x) → Covered s' x := by
    intro t p h0 h1 h2 h3 h4 h5 _ h6
    rw [h0] at hu'
    exact go hu' (holder_pc h1 h2 h3 h6) (fun _ => way h5 h4)
  have keepPh : s'.c.pk = s.c.pk → s'.c.pending = s.c.pending → s'.pc = s.pc → (s.phase.holds x → s'.phase.holds x) → s'.cbPost = s.cbPost →
      entries s' = entries s → Covered s' x := by
    intro h0 h1 h2 h3 h4 h5
    rw [h0] at hu'
    refine go hu' (fun h => ?_) (fun _ => way h5 h4)
    unfold Holder at *; rw [h1, h2]
    rcases h with h | h | h
    · exact .inl h
    · exact .inr (.inl h)
    · exact .inr (.inr (h3 h))
  cases a with
  | call t call =>
    simp only [step] at hs
    split at hs
    · cases hs
    split at hs
    · rename_i hpc
      split at hs
      · cases hs
      split at hs
      · cases hs; exact keep rfl rfl rfl rfl rfl rfl
      split at hs
      · cases hs; exact keep rfl rfl rfl rfl rfl rfl
      cases hs
      exact keepPc t _ rfl rfl rfl rfl rfl rfl (.inr trivial) (by rw [hpc]; exact fun h => absurd h id)
    · cases hs
  | go t fault =>
    simp only [step, goCall] at hs
    split at hs
    · cases hs
    split at hs
    · rename_i hpc
      split at hs <;> (cases hs; exact keepPc t _ rfl rfl rfl rfl rfl rfl (.inr trivial) (by rw [hpc]; exact fun h => absurd h id))
    · rename_i hpc
      split at hs
      · split at hs
        · cases hs; exact keepPc t _ rfl rfl rfl rfl rfl rfl (.inr trivial) (by rw [hpc]; exact fun h => absurd h id)
        · cases hs
          by_cases e : x = s.c.next
          · exact .inl (.inr (.inl ⟨t, by dsimp only; rw [upd_self]; exact e⟩))
          · dsimp only at hu'
            rw [setPk_other _ _ e] at hu'
            exact go hu' (holder_pc rfl rfl rfl (by rw [hpc]; exact fun h => absurd h id)) (fun _ => way rfl rfl)
      · split at hs <;> (cases hs; exact keepPc t _ rfl rfl rfl rfl rfl rfl (.inr trivial) (by rw [hpc]; exact fun h => absurd h id))
      · split at hs <;> (cases hs; exact keepPc t _ rfl rfl rfl rfl rfl rfl (.inr trivial) (by rw [hpc]; exact fun h => absurd h id))
    · rename_i call p hpc
      split at hs
      · rename_i k fd ev mode
        cases hs
        obtain ⟨f1, f2, f3, f4, f5, f6⟩ := setEvents_frame s.c p ev mode
        by_cases e : x = p
        · left; right; left
          refine ⟨t, ?_⟩
          dsimp only at hu' ⊢
          rw [upd_self]
          subst e
          split
          · rfl
          · rename_i hm
            exfalso
            revert hm hu'
            unfold setEvents
            split
            · rename_i k hk
              dsimp only
              rw [setPk_self]
              unfold setEventsSock
              dsimp only
              intro hu' hm
              obtain ⟨_, h2⟩ := hu'
              dsimp only [Sock.mask] at h2 hm
              rcases h2 with h2 | ⟨f, h2, h3⟩
              · rw [h2] at hm; exact hm rfl
              · rw [h2] at hm
                exact hm (decide_eq_true (Ne.symm h3))
            · rename_i w hw
              dsimp only
              rw [setPk_self]
              intro hu' hm
              exact hm (decide_eq_true hu'.1)
            · intro _ hm; exact hm rfl
        · dsimp only at hu'
          rw [f6 x e] at hu'
          exact go hu' (holder_pc f1 rfl rfl (by rw [hpc]; exact fun h => absurd h id)) (fun _ => way (by simp only [entries]; rw [f3]) rfl)
      · cases hs
    · rename_i call p hpc
      cases hs
      obtain ⟨f4, f5, f1, f2, f3, f6⟩ := beginDelete_frame fault s.c p
      by_cases e : x = p
      · exfalso
        subst e
        revert hu'
        dsimp only
        unfold beginDelete
        dsimp only
        split
        · rename_i k hk
          split
          · rename_i hw
            dsimp only
            rw [hk]
            rintro ⟨h1, _⟩
            rw [hw] at h1; cases h1
          · split
            · rw [setPk_self]
              rintro ⟨h1, _⟩
              rw [(cancel_frame _ _).2.2.2.2] at h1; cases h1
            · rw [setPk_self]
              rintro ⟨h1, _⟩
              cases h1
        · rw [setPk_self]
          rintro ⟨h1, _⟩
          cases h1
        · rename_i h1 h2
          intro h
          revert h
          dsimp only
          cases hq : s.c.pk x with
          | socket k => exact absurd hq (h1 k)
          | waitable w => exact absurd hq (h2 w)
          | _ => exact id
      · dsimp only at hu'
        rw [f6 x e] at hu'
        exact go hu' (holder_pc f1 rfl rfl (by rw [hpc]; exact fun h => absurd h id)) (fun _ => way (by simp only [entries]; rw [f3]) rfl)
    · rename_i call u hpc
      have hcalm := accepts_calm hA hpc
      have hids : ∀ y, u.holds y → ident (s.c.pk y) ≠ none := fun y hy => hhold y (.inr (.inl ⟨t, by rw [hpc]; exact hy⟩))
      have key : ∀ c' out o (p : Pc), ustep fault s.c u = (c', out, o) → (out.holds x → p.holds x) → Uns (c'.pk x) →
          Holder s x → Holder { s with c := c', pc := upd s.pc t p } x := by
        intro c' out o p hu hout hun hh
        obtain ⟨_, h2⟩ := ustep_uns hcalm hu x hun
        have fin : x ∈ s.c.pending ∨ u.holds x → Holder { s with c := c', pc := upd s.pc t p } x := by
          intro h
          rcases h2 h with h | h | ⟨e, h⟩
          · exact .inl h
          · exact .inr (.inl ⟨t, by dsimp only; rw [upd_self]; exact hout h⟩)
          · subst h; exact absurd hu (fun hu => ustep_accepts hcalm hids hu)
        rcases hh with hh | ⟨v, hh⟩ | hh
        · exact fin (.inl hh)
        · by_cases e : v = t
          · subst e; rw [hpc] at hh; exact fin (.inr hh)
          · exact .inr (.inl ⟨v, by dsimp only; rw [upd_other _ _ e]; exact hh⟩)
        · exact .inr (.inr hh)
      split at hs
      · rename_i hu; cases hs
        exact go (ustep_uns hcalm hu x hu').1 (key _ _ _ _ hu id hu') (fun _ => way (by simp only [entries]; rw [(ustep_frame hu).2.2.2]) rfl)
      · rename_i hu; cases hs
        exact go (ustep_uns hcalm hu x hu').1 (key _ _ _ _ hu (fun h => absurd h id) hu') (fun _ => way (by simp only [entries]; rw [(ustep_frame hu).2.2.2]) rfl)
    · rename_i hpc
      cases hs; exact keepPc t _ rfl rfl rfl rfl rfl rfl (.inr trivial) (by rw [hpc]; exact fun h => absurd h id)
    · cases hs
  | wait fault =>
    have hfault : fault = none := by
      cases fault with
      | none => rfl
      | some e => exact absurd hA id
    subst hfault
    simp only [step, goWait] at hs
    split at hs
    · rename_i hph; cases hs
      exact keepPh rfl rfl rfl (by rw [hph]; exact id) rfl (by simp [entries, hph, Phase.batch])
    · rename_i hph; cases hs
      exact keepPh rfl rfl rfl (by rw [hph]; exact id) rfl (by simp [entries, hph, Phase.batch])
    · rename_i hph
      split at hs
      · rename_i q rest heq; cases hs
        refine go hu' (fun h => ?_) (fun _ => way (by simp [entries, hph, Phase.batch]) rfl)
        rcases h with h | h | h
        · rw [heq] at h
          rcases List.mem_cons.1 h with h | h
          · exact .inr (.inr h)
          · exact .inl h
        · exact .inr (.inl h)
        · rw [hph] at h; exact absurd h id
      · cases hs
        exact keepPh rfl rfl rfl (by rw [hph]; exact id) rfl (by simp [entries, hph, Phase.batch])
    · rename_i w q hph
      have hok := update_ok (hhold q (.inr (.inr (by rw [hph]; rfl))))
      obtain ⟨f4, f5, f1, f2, f3, f6⟩ := update_frame none s.c q
      have hun := @update_uns s.c q x
      split at hs
      · rename_i c m he; rw [he] at f1 f3 hun; cases hs
        obtain ⟨h1, h2⟩ := hun hu'
        refine go h2 (fun h => ?_) (fun _ => way (by simp only [entries]; rw [f3, hph]; rfl) rfl)
        rcases h with h | h | h
        · exact .inl (by rw [f1]; exact h)
        · exact .inr (.inl h)
        · rw [hph] at h; exact absurd h h1
      · rename_i he; rw [he] at hok; cases hok
    · rename_i hph; cases hs
      exact keepPh rfl rfl rfl (by rw [hph]; exact id) rfl (by simp [entries, hph, Phase.batch])
    · rename_i hph
      unfold waitFail at hs
      split at hs <;> (cases hs; exact keepPh rfl rfl rfl (by rw [hph]; exact id) rfl (by simp [entries, hph, Phase.batch]))
    · rename_i hph; exact absurd hph (hnd _ _ _)
    · rename_i hph; exact absurd hph (hnd _ _ _)
    · rename_i w p batch hph
      obtain ⟨f4, f5, f1, f2, f3, f6⟩ := feed_frame s.c p
      have other : s'.c = (feed s.c p).2 → s'.pc = s.pc → s'.cbPost = s.cbPost → s'.phase.batch = batch →
          (x = p → Uns ((feed s.c p).2.pk p) → Holder s' x ∨ False) → Covered s' x := by
        intro g1 g2 g3 g4 g6
        by_cases e : x = p
        · subst e
          rw [g1] at hu'
          rcases g6 rfl hu' with h | h
          · exact .inl h
          · exact absurd h id
        · rw [g1, f6 x e] at hu'
          refine go hu' (fun h => ?_) (fun _ h => .inl ?_)
          · rcases h with h | h | h
            · exact .inl (by rw [g1, f1]; exact h)
            · exact .inr (.inl (by rw [g2]; exact h))
            · rw [hph] at h; exact absurd h id
          · rcases h with h | h
            · exact .inl (by rw [g3]; exact h)
            · right
              unfold entries at h ⊢
              rw [hph] at h
              rw [g4, g1, f3]
              simp only [Phase.batch, List.cons_append, List.mem_cons] at h
              exact h.resolve_left e
      have nouns : ∀ r, (feed s.c p).1 = r → (∀ k fd ev, r ≠ .update k fd ev) → ¬ Uns ((feed s.c p).2.pk p) := by
        intro r hrr hne hun
        rcases feed_cases s.c p with ⟨k, r', e1, e2, e3, e4⟩ | ⟨k, r', e1, e2, e3, e4, e5⟩ | ⟨k, r', e1, e2, e3, e4, e5⟩ | ⟨w, e1, e5⟩ | ⟨e, e1, e2⟩ |
            ⟨e1, e2⟩ | ⟨e1, e2⟩
        · rw [e4, setPk_self] at hun
          obtain ⟨h1, _⟩ := hun
          have e3 : k.waitingOnDelete = true := e3
          have h1 : k.waitingOnDelete = false := h1
          rw [e3] at h1; cases h1
        · exact feed_not_stuck hr p (by rw [e5])
        · rw [e5] at hrr; exact hne _ _ _ hrr.symm
        · rw [e5] at hrr; exact hne _ _ _ hrr.symm
        · rw [e2, e1] at hun; exact hun
        · rw [e2, e1] at hun; exact hun
        · rw [e2] at hun
          rcases e1 with ⟨k, e1, hop⟩ | e1
          · have := hei.once p false (by rw [e1]; simp [kind])
            unfold entries at this
            rw [hph] at this
            simp [Phase.batch] at this
          · rw [e1] at hun; exact hun
      split at hs
      · rename_i c he; cases hs
        exact other (congrArg Prod.snd he).symm rfl rfl rfl (fun _ hun => absurd hun (nouns _ (congrArg Prod.fst he) nofun))
      · rename_i c he; cases hs
        exact other (congrArg Prod.snd he).symm rfl rfl rfl (fun _ hun => absurd hun (nouns _ (congrArg Prod.fst he) nofun))
      · rename_i ev c he; cases hs
        exact other (congrArg Prod.snd he).symm rfl rfl rfl (fun _ hun => absurd hun (nouns _ (congrArg Prod.fst he) nofun))
      · rename_i c he; exact absurd (congrArg Prod.fst he) (feed_not_stuck hr p)
      · rename_i k fd ev c he; cases hs
        exact other (congrArg Prod.snd he).symm rfl rfl rfl (fun e _ => .inl (.inr (.inr e)))
    · rename_i w batch u ev hph
      have hcalm : Calm (coherent none u) u := calm_coherent
      have hids : ∀ y, u.holds y → ident (s.c.pk y) ≠ none := fun y hy => hhold y (.inr (.inr (by rw [hph]; exact hy)))
      have key : ∀ c' out o (ph : Phase), ustep (coherent none u) s.c u = (c', out, o) → (out.holds x → ph.holds x) → Uns (c'.pk x) →
          Holder s x → Holder { s with c := c', phase := ph } x := by
        intro c' out o ph hu hout hun hh
        obtain ⟨_, h2⟩ := ustep_uns hcalm hu x hun
        have fin : x ∈ s.c.pending ∨ u.holds x → Holder { s with c := c', phase := ph } x := by
          intro h
          rcases h2 h with h | h | ⟨e, h⟩
          · exact .inl h
          · exact .inr (.inr (hout h))
          · subst h; exact absurd hu (fun hu => ustep_accepts hcalm hids hu)
        rcases hh with hh | hh | hh
        · exact fin (.inl hh)
        · exact .inr (.inl hh)
        · rw [hph] at hh; exact fin (.inr hh)
      split at hs
      · rename_i hu; cases hs
        exact go (ustep_uns hcalm hu x hu').1 (key _ _ _ _ hu id hu') (fun _ => way (by simp only [entries]; rw [(ustep_frame hu).2.2.2, hph]; rfl) rfl)
      · rename_i hu; cases hs
        exact go (ustep_uns hcalm hu x hu').1 (key _ _ _ _ hu (fun h => absurd h id) hu')
          (fun _ => way (by simp only [entries]; rw [(ustep_frame hu).2.2.2, hph]; rfl) rfl)
      · rename_i hu; exact absurd hu (fun hu => ustep_accepts hcalm hids hu)
    · rename_i hph; cases hs
      exact keepPh rfl rfl rfl (by rw [hph]; exact id) rfl (by simp [entries, hph, Phase.batch])
    · cases hs
  | newPacket _ =>
    simp only [step] at hs; split at hs
    · cases hs
    · cases hs
      by_cases e : x = s.c.next
      · subst e; dsimp only at hu'; rw [setPk_self] at hu'; exact absurd hu' id
      · dsimp only at hu'
        rw [setPk_other _ _ e] at hu'
        exact go hu' id (fun _ => way rfl rfl)
  | post p fault =>
    simp only [step] at hs
    split at hs
    · split at hs
      · cases hs; exact keep rfl rfl rfl rfl rfl rfl
      · cases hs
        refine go hu' id (fun _ h => .inl ?_)
        rcases h with h | h
        · exact .inl h
        · exact .inr (by simp [entries] at h ⊢; rcases h with h | h <;> simp [h])
    · cases hs
  | notifyCas t =>
    simp only [step] at hs
    split at hs
    · cases hs
    split at hs
    · rename_i hpc
      split at hs
      · cases hs; exact keep rfl rfl rfl rfl rfl rfl
      · cases hs; exact keepPc t _ rfl rfl rfl rfl rfl rfl (.inr trivial) (by rw [hpc]; exact fun h => absurd h id)
    · cases hs
  | notifyPost t fault =>
    simp only [step] at hs
    split at hs
    · rename_i hpc
      split at hs
      · cases hs; exact keepPc t _ rfl rfl rfl rfl rfl rfl (.inr trivial) (by rw [hpc]; exact fun h => absurd h id)
      · cases hs
        refine go hu' (holder_pc rfl rfl rfl (by rw [hpc]; exact fun h => absurd h id)) (fun _ h => .inl ?_)
        rcases h with h | h
        · exact .inl h
        · exact .inr (by simp [entries] at h ⊢; rcases h with h | h <;> simp [h])
    · cases hs
  | waitBegin timed cap =>
    simp only [step] at hs
    split at hs
    · rename_i hph
      split at hs
      · cases hs
      · cases hs; exact keepPh rfl rfl rfl (by rw [hph]; exact id) rfl (by simp [entries, hph, Phase.batch])
    · cases hs
  | waitBusy =>
    simp only [step] at hs
    split at hs
    · cases hs
    · cases hs; exact keep rfl rfl rfl rfl rfl rfl
  | get =>
    simp only [step] at hs
    split at hs
    · rename_i w hph
      split at hs
      · cases hs
        refine keepPh rfl rfl rfl (by rw [hph]; exact id) rfl ?_
        unfold entries; rw [hph]; exact List.take_append_drop _ _
      · cases hs
    · cases hs
  | getFail e =>
    simp only [step] at hs
    split at hs
    · rename_i hph; cases hs; exact keepPh rfl rfl rfl (by rw [hph]; exact id) rfl (by simp [entries, hph, Phase.batch])
    · cases hs
  | decide e =>
    simp only [step] at hs
    split at hs
    · rename_i hph
      split at hs <;> (cases hs; exact keepPh rfl rfl rfl (by rw [hph]; exact id) rfl (by simp [entries, hph, Phase.batch]))
    · cases hs
  | complete p r =>
    simp only [step] at hs
    split at hs
    · rename_i k hk
      split at hs
      · split at hs
        · cases hs
          have : Uns (s.c.pk x) := by
            by_cases e : x = p
            · subst e; dsimp only at hu'; rw [setPk_self] at hu'; rw [hk]; exact hu'
            · dsimp only at hu'; rw [setPk_other _ _ e] at hu'; exact hu'
          refine go this id (fun _ h => .inl ?_)
          rcases h with h | h
          · exact .inl h
          · exact .inr (by simp [entries] at h ⊢; rcases h with h | h <;> simp [h])
        · cases hs
      · cases hs
    · cases hs
  | fire p =>
    simp only [step] at hs
    split at hs
    · rename_i w hw
      split at hs
      · cases hs
        have : Uns (s.c.pk x) := by
          by_cases e : x = p
          · subst e; dsimp only at hu'; rw [setPk_self] at hu'; rw [hw]; exact hu'
          · dsimp only at hu'; rw [setPk_other _ _ e] at hu'; exact hu'
        exact go this id (fun _ => way rfl rfl)
      · cases hs
    · cases hs
  | callback p =>
    simp only [step] at hs
    split at hs
    · rename_i w hw
      split at hs
      · cases hs
        by_cases e : x = p
        · subst e
          right
          refine ⟨by dsimp only; rw [setPk_self]; rfl, .inl ?_⟩
          exact List.mem_cons_self
        · dsimp only at hu'; rw [setPk_other _ _ e] at hu'
          refine go hu' id (fun _ h => .inl ?_)
          rcases h with h | h
          · exact .inl (List.mem_cons_of_mem _ h)
          · exact .inr h
      · cases hs
    · cases hs
  | callbackPost p fault =>
    have hfault : fault = none := by
      cases fault with
      | none => rfl
      | some e => exact absurd hA id
    subst hfault
    simp only [step] at hs
    split at hs
    · cases hs
      refine go hu' id (fun _ h => .inl ?_)
      by_cases e : x = p
      · subst e; right; simp [entries]
      · rcases h with h | h
        · exact .inl ((List.mem_erase_of_ne e).2 h)
        · exact .inr (by simp [entries] at h ⊢; rcases h with h | h <;> simp [h])
    · cases hs

theorem reach_any {n P s tr} (h : Reach n P s tr) : Reach n Any s tr := by
  induction h with
  | init => exact .init
  | step _ _ hs ih => exact .step ih trivial hs

theorem accepts_noFail {P : S → Act → Prop} (hP : ∀ s a, P s a → Accepts s a) : ∀ s a, P s a → NoFail s a := by
  intro s a h
  have := hP s a h
  unfold NoFail
  split
  · exact absurd this id
  · trivial

/-- If the OS refuses nothing: a registration whose interest is not what the OS watches for is going to be updated. -/
theorem reach_cov {n P s tr} (hP : ∀ s a, P s a → Accepts s a) (h : Reach n P s tr) : ∀ x, Uns (s.c.pk x) → Covered s x := by
  induction h with
  | init =>
    intro x
    show Uns (if x = NOTIFIER then Pkt.wakeup else Pkt.free) → _
    split <;> exact fun h => absurd h id
  | @step s tr a s' o hr hp hs ih =>  exact cov_step hr (noFail (accepts_noFail hP) hr) (hP _ _ hp) hs ih

end Polling.IocpM
