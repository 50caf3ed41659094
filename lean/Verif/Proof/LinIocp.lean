import Verif.Proof.LinSim
import Verif.Proof.IocpReg

/-! The registration calls of the IOCP machine are those of the atomic object. -/

namespace Polling.IocpM
open Iocp IocpSpec Lin

/-- The OS calls of registration calls do not fail with an error that means something else to the program: the kind `AlreadyExists` or
`NotFound`. -/
def OwnErrors : S → Act → Prop
  | _, .go _ (some e) => e ≠ .alreadyExists ∧ e ≠ .notFound
  | _, _ => True

/-- What the atomic object knows of a thread at this position. -/
def linAt : Pc → Option (InCall (Bool × Fd))
  | .prepare c | .table c => some ⟨(kindI c).1, (kindI c).2, none⟩
  | .set c _ => some ⟨.modify, (kindI c).2, some (true, true)⟩
  | .del c _ => some ⟨.delete, (kindI c).2, some (true, false)⟩
  | .upd c _ | .ret c _ => some ⟨(kindI c).1, (kindI c).2, some (if (kindI c).1 = .add then false else true, true)⟩
  | .out | .notify => none

/-- The result is no statement about the table. -/
def Plain (r : Res) : Prop := ofRes r = .ok ∨ ofRes r = .failed

def LinOk : Pc → Prop
  | .set c _ => (kindI c).1 = .modify
  | .upd c _ => (kindI c).1 ≠ .delete
  | .ret c r => (kindI c).1 ≠ .delete ∧ Plain r
  | _ => True

structure LinRel (s : S) (st : State (Bool × Fd)) : Prop where
  present : ∀ x, st.present x = (s.c.table x.1 x.2).isSome
  calls : ∀ t, st.calls t = linAt (s.pc t)
  ok : ∀ t, LinOk (s.pc t)

theorem put_calls {pc : Tid → Pc} {calls : Tid → Option (InCall (Bool × Fd))} (h : ∀ t, calls t = linAt (pc t)) (t : Tid) {v p}
    (hv : v = linAt p) (u : Tid) : put calls t v u = linAt (upd pc t p u) := by
  unfold put upd; split
  · exact hv
  · exact h u

theorem upd_linOk {pc : Tid → Pc} (h : ∀ t, LinOk (pc t)) (t : Tid) {p} (hp : LinOk p) (u : Tid) : LinOk (upd pc t p u) := by
  unfold upd; split
  · exact hp
  · exact h u

/-- A fault that may be returned. -/
def OwnFault (fault : Option Err) : Prop := ∀ e, fault = some e → e ≠ .alreadyExists ∧ e ≠ .notFound

theorem plain_ok : Plain .ok := .inl rfl
theorem plain_err {e : Err} (h : e ≠ .alreadyExists ∧ e ≠ .notFound) : Plain (.err e) := by
  refine .inr ?_
  cases e <;> first | rfl | exact absurd rfl h.1 | exact absurd rfl h.2

theorem cancel_plain {fault} (h : OwnFault fault) (s) : Plain (cancel fault s).1 := by
  unfold cancel; split
  · next e => exact plain_err (h e rfl)
  · exact plain_ok

theorem update_plain {fault} (h : OwnFault fault) (c p) : Plain (update fault c p).1 := by
  unfold update; split
  · next s _ =>
    dsimp only
    unfold updateSock
    split
    · exact plain_ok
    · split
      · split
        · exact cancel_plain h s
        · exact plain_ok
      · exact plain_ok
      · unfold startPoll
        dsimp only
        split
        · exact plain_ok
        · split
          · exact plain_ok
          · next e _ =>
            split
            · exact plain_ok
            · exact plain_err (h _ rfl)
  · next w _ =>
    dsimp only
    unfold updateWtb
    split
    · exact plain_ok
    · split
      · exact plain_ok
      · split
        · exact plain_err (h _ rfl)
        · exact plain_ok
  · exact .inr rfl

theorem beginDelete_plain {fault} (h : OwnFault fault) (c p) : Plain (beginDelete fault c p).1 := by
  unfold beginDelete; split
  · next s _ =>
    split
    · exact plain_ok
    · dsimp only
      split
      · exact cancel_plain h _
      · exact plain_ok
  · exact plain_ok
  · exact plain_ok

theorem setEvents_table (c p ev mode) : (setEvents c p ev mode).2.table = c.table := by
  unfold setEvents; split <;> rfl

theorem ustep_table (fault c u) : (ustep fault c u).1.table = c.table := by
  cases u with
  | load => rfl
  | run p => exact (update_frame fault c p).2.1
  | push p => simp only [ustep]; split <;> rfl
  | pop p n => simp only [ustep]; split <;> rfl
  | drain p n q => exact (update_frame fault c q).2.1

theorem ustep_plain {fault} (h : OwnFault fault) (c u) {r} (hr : (ustep fault c u).2.1 = .done r) : Plain r := by
  cases u with
  | load => simp only [ustep] at hr; cases hr
  | run p => simp only [ustep] at hr; cases hr; exact update_plain h c p
  | push p =>
    simp only [ustep] at hr; split at hr
    · cases hr; exact plain_ok
    · cases hr
  | pop p n => simp only [ustep] at hr; split at hr <;> cases hr
  | drain p n q =>
    simp only [ustep] at hr
    have := update_plain h c q
    split at hr
    · cases hr
    · next e => cases hr; rw [e] at this; exact this

/-- The observation says nothing about registration calls. -/
def NoCall : IObs → Prop
  | .begin .. | .ret .. | .deleted .. => False
  | _ => True

theorem noCall_view {o} (h : NoCall o) (tr) : Lin.ofIObs (o :: tr) = Lin.ofIObs tr := by
  cases o <;> first | rfl | exact absurd h id

theorem noCall_updateObs (p m) : NoCall (updateObs p m) := by unfold updateObs; split <;> trivial

theorem ustep_noCall (fault c u) : NoCall (ustep fault c u).2.2 := by
  cases u with
  | load => trivial
  | run p => exact noCall_updateObs _ _
  | push p => simp only [ustep]; split <;> trivial
  | pop p n => simp only [ustep]; split <;> trivial
  | drain p n q => exact noCall_updateObs _ _

/-- The steps that are not those of a registration call. -/
theorem other_step {n s a s' o} (hs : step n s a = some (s', o)) (h1 : ∀ t call, a ≠ .call t call) (h2 : ∀ t fault, a ≠ .go t fault) :
    s'.c.table = s.c.table ∧ NoCall o ∧ ∀ t, linAt (s'.pc t) = linAt (s.pc t) ∧ (LinOk (s.pc t) → LinOk (s'.pc t)) := by
  have pcs : ∀ {p : Pc} {t : Tid}, linAt (s.pc t) = none → linAt p = none → LinOk p → ∀ u, linAt (upd s.pc t p u) = linAt (s.pc u) ∧
      (LinOk (s.pc u) → LinOk (upd s.pc t p u)) := by
    intro p t e1 e2 e3 u
    unfold upd; split
    · next e => rw [e, e1, e2]; exact ⟨rfl, fun _ => e3⟩
    · exact ⟨rfl, id⟩
  have keep : ∀ t, linAt (s.pc t) = linAt (s.pc t) ∧ (LinOk (s.pc t) → LinOk (s.pc t)) := fun _ => ⟨rfl, id⟩
  have wf : ∀ {s1 : S} {w e s' o}, waitFail s1 w e = (s', o) → s'.c = s1.c ∧ s'.pc = s1.pc ∧ NoCall o := by
    intro s1 w e s' o h
    unfold waitFail at h
    split at h <;> (cases h; exact ⟨rfl, rfl, trivial⟩)
  cases a with
  | call t call => exact absurd rfl (h1 t call)
  | go t fault => exact absurd rfl (h2 t fault)
  | newPacket ev =>
    simp only [step] at hs
    split at hs <;> cases hs
    exact ⟨rfl, trivial, keep⟩
  | post p fault =>
    simp only [step] at hs
    repeat' split at hs
    all_goals cases hs
    all_goals exact ⟨rfl, trivial, keep⟩
  | notifyCas t =>
    simp only [step] at hs
    split at hs
    · cases hs
    split at hs
    · next hp =>
      split at hs <;> cases hs
      · exact ⟨rfl, trivial, keep⟩
      · exact ⟨rfl, trivial, pcs (by rw [hp]; rfl) rfl trivial⟩
    · cases hs
  | notifyPost t fault =>
    simp only [step] at hs
    split at hs
    · next hp =>
      split at hs <;> cases hs
      · exact ⟨rfl, trivial, pcs (by rw [hp]; rfl) rfl trivial⟩
      · exact ⟨rfl, trivial, pcs (by rw [hp]; rfl) rfl trivial⟩
    · cases hs
  | waitBegin timed cap =>
    simp only [step] at hs
    repeat' split at hs
    all_goals cases hs
    all_goals exact ⟨rfl, trivial, keep⟩
  | waitBusy =>
    simp only [step] at hs
    repeat' split at hs
    all_goals cases hs
    all_goals exact ⟨rfl, trivial, keep⟩
  | wait fault =>
    simp only [step, goWait] at hs
    split at hs
    · cases hs; exact ⟨rfl, trivial, keep⟩
    · cases hs; exact ⟨rfl, trivial, keep⟩
    · split at hs <;> (cases hs; exact ⟨rfl, trivial, keep⟩)
    · next w q _ =>
      have := (update_frame fault s.c q).2.1
      split at hs <;> (next h => cases hs; rw [h] at this; exact ⟨this, noCall_updateObs _ _, keep⟩)
    · cases hs; exact ⟨rfl, trivial, keep⟩
    · obtain ⟨e1, e2, e3⟩ := wf (Option.some.inj hs); exact ⟨by rw [e1], e3, by rw [e2]; exact keep⟩
    · obtain ⟨e1, e2, e3⟩ := wf (Option.some.inj hs); exact ⟨by rw [e1], e3, by rw [e2]; exact keep⟩
    · next p batch _ => cases hs; exact ⟨(dropEntry_frame s.c p).2.1, trivial, keep⟩
    · next p batch _ =>
      have := (feed_frame s.c p).2.1
      split at hs <;> (next h => cases hs; rw [h] at this; refine ⟨this, ?_, keep⟩; first | trivial | (split <;> trivial))
    · next w batch u ev _ =>
      have h5 := ustep_table (coherent fault u) s.c u
      have h6 := ustep_noCall (coherent fault u) s.c u
      split at hs <;> (next h => cases hs; rw [h] at h5 h6; exact ⟨h5, h6, keep⟩)
    · cases hs; exact ⟨rfl, trivial, keep⟩
    · cases hs
  | get =>
    simp only [step] at hs
    repeat' split at hs
    all_goals cases hs
    all_goals exact ⟨rfl, trivial, keep⟩
  | getFail e =>
    simp only [step] at hs
    repeat' split at hs
    all_goals cases hs
    all_goals exact ⟨rfl, trivial, keep⟩
  | decide e =>
    simp only [step] at hs
    repeat' split at hs
    all_goals cases hs
    all_goals exact ⟨rfl, trivial, keep⟩
  | complete p r =>
    simp only [step] at hs
    repeat' split at hs
    all_goals cases hs
    all_goals exact ⟨rfl, trivial, keep⟩
  | fire p =>
    simp only [step] at hs
    repeat' split at hs
    all_goals cases hs
    all_goals exact ⟨rfl, trivial, keep⟩
  | callback p =>
    simp only [step] at hs
    repeat' split at hs
    all_goals cases hs
    all_goals exact ⟨rfl, trivial, keep⟩
  | callbackPost p fault =>
    simp only [step] at hs
    split at hs
    · cases hs; exact ⟨by dsimp only; split <;> rfl, trivial, keep⟩
    · cases hs

theorem step_lin {ru : Rules} (hru : ru.deleteAny = true) {n s a s' o st} {tr : List IObs} (hs : step n s a = some (s', o))
    (hP : OwnErrors s a) (h : LinRel s st) (ha : Atomic ru st (Lin.ofIObs tr)) :
    ∃ st', Atomic ru st' (Lin.ofIObs (o :: tr)) ∧ LinRel s' st' := by
  obtain ⟨p, calls⟩ := st
  obtain ⟨h1, h2, h3⟩ := h
  dsimp only at h1 h2
  by_cases hc : ∃ t call, a = .call t call
  · obtain ⟨t, call, rfl⟩ := hc
    simp only [step] at hs
    split at hs
    · cases hs
    split at hs
    · next hp =>
      have hn : calls t = none := by rw [h2, hp]; rfl
      split at hs
      · cases hs
      split at hs
      · cases hs; exact ⟨⟨p, calls⟩, by simp only [Lin.ofIObs]; rw [addRet_none ha hn]; exact ha, h1, h2, h3⟩
      split at hs
      · cases hs; exact ⟨⟨p, calls⟩, by simp only [Lin.ofIObs]; rw [addRet_none ha hn]; exact ha, h1, h2, h3⟩
      cases hs
      refine ⟨_, Atomic.begin ha hn, h1, put_calls h2 t ?_, upd_linOk h3 t ?_⟩
      · split <;> rfl
      · split <;> trivial
    · cases hs
  by_cases hg : ∃ t fault, a = .go t fault
  · obtain ⟨t, fault, rfl⟩ := hg
    have hof : OwnFault fault := fun e he => by subst he; exact hP
    have late : ∀ {kd x b af r s1} {o : IObs}, linAt (s.pc t) = some ⟨kd, x, some (b, af)⟩ → (∀ y k, Allowed ru kd (ofRes r) b af (p (y, k))) →
        Lin.ofIObs (o :: tr) = addRet t (ofRes r) (Lin.ofIObs tr) → s1.c.table = s.c.table → s1.pc = upd s.pc t .out →
        ∃ st', Atomic ru st' (Lin.ofIObs (o :: tr)) ∧ LinRel s1 st' := by
      intro kd x b af r s1 o e hal e1 e2 e3
      have hc : calls t = _ := (h2 t).trans e
      refine ⟨⟨p, put calls t none⟩, ?_, fun x => by rw [e2]; exact h1 x, by rw [e3]; exact put_calls h2 t rfl, by rw [e3]; exact upd_linOk h3 t trivial⟩
      rw [e1, addRet_some ha hc]
      exact Atomic.ret ha hc (hal _ _)
    have look : ∀ {call r s1}, (s.pc t = .prepare call ∨ s.pc t = .table call) →
        Allowed ru (kindI call).1 (ofRes r) (p (kindI call).2) (p (kindI call).2) (p (kindI call).2) →
        s1.c = s.c → s1.pc = upd s.pc t .out →
        ∃ st', Atomic ru st' (Lin.ofIObs (.ret t call r :: tr)) ∧ LinRel s1 st' := by
      intro call r s1 e hal e2 e3
      have hc : calls t = some ⟨(kindI call).1, (kindI call).2, none⟩ := by
        rw [h2]; rcases e with e | e <;> (rw [e]; rfl)
      refine ⟨⟨p, put calls t none⟩, ?_, fun x => by rw [e2]; exact h1 x, by rw [e3]; exact put_calls h2 t rfl, by rw [e3]; exact upd_linOk h3 t trivial⟩
      simp only [Lin.ofIObs]
      rw [addRet_some ha hc]
      exact Atomic.look ha hc hal
    have tau : ∀ {q s1} {o : IObs}, NoCall o → linAt q = linAt (s.pc t) → LinOk q → s1.c.table = s.c.table → s1.pc = upd s.pc t q →
        ∃ st', Atomic ru st' (Lin.ofIObs (o :: tr)) ∧ LinRel s1 st' := by
      intro q s1 o hno hq hk e2 e3
      refine ⟨⟨p, calls⟩, by rw [noCall_view hno]; exact ha, fun x => by rw [e2]; exact h1 x, fun u => ?_, by rw [e3]; exact upd_linOk h3 t hk⟩
      dsimp only
      rw [h2, e3]; unfold upd; split
      · next e => rw [e, hq]
      · rfl
    have hk := h3 t
    simp only [step, goCall] at hs
    split at hs
    · cases hs
    split at hs
    · next call hp =>
      split at hs
      · next e => cases hs
                  have hpl := plain_err (hof e rfl)
                  have : ofRes (.err e) = .failed := hpl.resolve_left (by cases e <;> exact nofun)
                  refine look (.inl hp) ?_ rfl rfl
                  rw [this]
                  cases (kindI call).1 with
                  | add => exact .inl rfl
                  | modify => exact rfl
                  | delete => exact .inl rfl
      · cases hs
        exact tau (q := .table call) trivial (by rw [hp]; rfl) trivial rfl rfl
    · next call hp =>
      split at hs
      · next k fd ev mode =>
        split at hs
        · next q hq =>
          cases hs
          refine look (.inr hp) ?_ rfl rfl
          simp only [kindI, h1, hq]; exact ⟨rfl, rfl⟩
        · next hq =>
          cases hs
          have hc : calls t = some ⟨.add, (k, fd), none⟩ := by rw [h2, hp]; rfl
          refine ⟨_, Atomic.effect true ha hc, fun x => ?_, put_calls h2 t ?_, upd_linOk h3 t nofun⟩
          · dsimp only; unfold put
            by_cases e : x = (k, fd)
            · subst e; simp
            · rw [if_neg e, h1, if_neg]
              intro ⟨e1, e2⟩; exact e (Prod.ext e1 e2)
          · simp only [linAt, kindI, h1, hq]; rfl
      · next k fd ev mode =>
        split at hs
        · next hq =>
          cases hs
          refine look (.inr hp) ?_ rfl rfl
          simp only [kindI, h1, hq]; exact ⟨rfl, rfl⟩
        · next q hq =>
          cases hs
          have hc : calls t = some ⟨.modify, (k, fd), none⟩ := by rw [h2, hp]; rfl
          refine ⟨_, Atomic.effect true ha hc, fun x => ?_, put_calls h2 t ?_, upd_linOk h3 t rfl⟩
          · dsimp only; unfold put; split
            · next e => subst e; dsimp only; rw [hq]; rfl
            · exact h1 x
          · simp only [linAt, kindI, h1, hq]; rfl
      · next k fd =>
        split at hs
        · next hq =>
          cases hs
          refine look (.inr hp) ?_ rfl rfl
          simp only [kindI, h1, hq]; exact ⟨rfl, .inr hru⟩
        · next q hq =>
          cases hs
          have hc : calls t = some ⟨.delete, (k, fd), none⟩ := by rw [h2, hp]; rfl
          refine ⟨_, Atomic.effect false ha hc, fun x => ?_, put_calls h2 t ?_, upd_linOk h3 t trivial⟩
          · dsimp only; unfold put
            by_cases e : x = (k, fd)
            · subst e; simp
            · rw [if_neg e, h1, if_neg]
              intro ⟨e1, e2⟩; exact e (Prod.ext e1 e2)
          · simp only [linAt, kindI, h1, hq]; rfl
    · next call q hp =>
      split at hs
      · next k fd ev mode =>
        rcases hse : setEvents s.c q ev mode with ⟨more, c⟩
        have ht := setEvents_table s.c q ev mode
        rw [hse] at hs ht
        cases hs
        refine tau trivial ?_ ?_ ht rfl
        · rw [hp]; split <;> rfl
        · split
          · exact nofun
          · exact ⟨nofun, plain_ok⟩
      · cases hs
    · next call q hp =>
      rcases hbd : beginDelete fault s.c q with ⟨r, c⟩
      have ht := (beginDelete_frame fault s.c q).2.1
      have hpl := beginDelete_plain hof s.c q
      rw [hbd] at hs ht hpl
      cases hs
      refine late (kd := .delete) (b := true) (af := false) (r := r) (by rw [hp]; rfl) (fun y k => ?_) rfl ht rfl
      rcases hpl with e | e <;> (rw [e])
      · exact ⟨rfl, .inl rfl⟩
      · exact .inr rfl
    · next call u hp =>
      have ht := ustep_table fault s.c u
      have hno := ustep_noCall fault s.c u
      have hpl := @ustep_plain fault hof s.c u
      rw [hp] at hk
      split at hs
      · next u' _ h => cases hs; rw [h] at ht hno; exact tau (q := .upd call u') hno (by rw [hp]; rfl) hk ht rfl
      · next r _ h => cases hs; rw [h] at ht hno hpl; exact tau (q := .ret call r) hno (by rw [hp]; rfl) ⟨hk, hpl rfl⟩ ht rfl
    · next call r hp =>
      cases hs
      rw [hp] at hk
      obtain ⟨hkd, hpl⟩ := hk
      refine late (r := r) (by rw [hp]; rfl) (fun y k => ?_) rfl rfl rfl
      cases hkk : (kindI call).1 with
      | add =>
        rcases hpl with e | e <;> rw [e]
        · exact ⟨rfl, rfl⟩
        · exact .inr rfl
      | modify =>
        rcases hpl with e | e <;> rw [e]
        · exact ⟨rfl, rfl⟩
        · exact rfl
      | delete => exact absurd hkk hkd
    · cases hs
  · obtain ⟨e1, e2, e3⟩ := other_step hs (fun t call e => hc ⟨t, call, e⟩) (fun t fault e => hg ⟨t, fault, e⟩)
    exact ⟨⟨p, calls⟩, by rw [noCall_view e2]; exact ha, fun x => by rw [e1]; exact h1 x, fun t => by rw [(e3 t).1]; exact h2 t,
      fun t => (e3 t).2 (h3 t)⟩

theorem reach_lin {ru : Rules} (hru : ru.deleteAny = true) {n s tr} (h : Reach n OwnErrors s tr) :
    ∃ st, Atomic ru st (Lin.ofIObs tr) ∧ LinRel s st := by
  induction h with
  | init => exact ⟨_, .init, fun _ => rfl, fun _ => rfl, fun _ => trivial⟩
  | step _ hp hs ih =>
    obtain ⟨st, ha, hl⟩ := ih
    exact step_lin hru hs hp hl ha

end Polling.IocpM
