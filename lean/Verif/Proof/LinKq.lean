import Verif.Spec.LinView
import Verif.Proof.LinSim
import Verif.Proof.KqNext

/-! The registration calls of the kqueue machine are those of the atomic object. -/

namespace Polling.KqM
open Kqueue KqSpec Lin

/-- The OS does not fail with an error that means something else to the program: `kevent` as a whole does not fail with the kind
`AlreadyExists` or `NotFound`. -/
def OwnErrors : S → Tid → Act → Prop
  | _, _, .kfail e => e ≠ .alreadyExists ∧ e ≠ .notFound
  | _, _, _ => True

/-- What the atomic object knows of a thread at this position. -/
def linAt : Pc → Option (InCall Source)
  | .insert c => some ⟨.add, sourceOf c, none⟩
  | .has c => some ⟨kindK c, sourceOf c, if kindK c = .add then some (false, true) else none⟩
  | .submit (.call c) _ _ => some ⟨kindK c, sourceOf c,
      match kindK c with
      | .add => some (false, true)
      | .modify => some (true, true)
      | .delete => none⟩
  | .remove c => some ⟨.delete, sourceOf c, none⟩
  | .ending c => some ⟨.delete, sourceOf c, some (true, false)⟩
  | _ => none

/-- Only additions insert, only deletions remove; calls concern the user's sources. -/
def LinOk (c : Cfg) : Pc → Prop
  | .insert call => kindK call = .add ∧ accessible c call = true
  | .has call => accessible c call = true
  | .submit (.call call) _ _ => accessible c call = true
  | .remove call | .ending call => kindK call = .delete ∧ accessible c call = true
  | _ => True

structure LinRel (c : Cfg) (s : S) (st : State Source) : Prop where
  present : ∀ x, (c.user = true ∨ x ≠ .fd c.notifFd) → st.present x = s.sources x
  calls : ∀ t, st.calls t = linAt (s.pc t)
  ok : ∀ t, LinOk c (s.pc t)

theorem sourceOf_eq (call : Call) : sourceOf call = source call := by
  cases call <;> first | rfl | (next x _ _ => cases x <;> rfl) | (next x => cases x <;> rfl)

theorem submitResult_own (l : List KEvent) : submitResult l ≠ .err .alreadyExists ∧ submitResult l ≠ .err .notFound := by
  induction l with
  | nil => exact ⟨nofun, nofun⟩
  | cons ev l ih =>
    unfold submitResult
    split
    · exact ⟨nofun, nofun⟩
    · exact ih

theorem ofRes_own {r : Res} (h1 : r ≠ .err .alreadyExists) (h2 : r ≠ .err .notFound) : ofRes r = if r = .ok then .ok else .failed := by
  unfold ofRes
  split <;> simp_all

theorem linAt_first {call : Call} : linAt (first call) = some ⟨kindK call, sourceOf call, none⟩ := by
  cases call <;> rfl

theorem acc_source {c : Cfg} {call : Call} (h : accessible c call = true) : c.user = true ∨ sourceOf call ≠ .fd c.notifFd := by
  rw [sourceOf_eq]
  unfold accessible at h
  simp only [Bool.or_eq_true, bne_iff_ne, ne_eq] at h
  exact h

theorem isDelete_kind (call : Call) : isDelete call = true ↔ kindK call = .delete := by
  cases call <;> simp [isDelete, kindK]

theorem put_sources {c : Cfg} {s : S} {p : Source → Bool} (x : Source) (v : Bool)
    (h : ∀ y, (c.user = true ∨ y ≠ .fd c.notifFd) → p y = s.sources y) (y : Source) (hy : c.user = true ∨ y ≠ .fd c.notifFd) :
    put p x v y = if y = x then v else s.sources y := by
  unfold put; split
  · rfl
  · exact h y hy

theorem put_calls {pc : Tid → Pc} {calls : Tid → Option (InCall Source)} (h : ∀ t, calls t = linAt (pc t)) (t : Tid) {v p} (hv : v = linAt p)
    (u : Tid) : put calls t v u = linAt (upd pc t p u) := by
  unfold put upd; split
  · exact hv
  · exact h u

theorem upd_linOk {c : Cfg} {pc : Tid → Pc} (h : ∀ t, LinOk c (pc t)) (t : Tid) {p} (hp : LinOk c p) (u : Tid) : LinOk c (upd pc t p u) := by
  unfold upd; split
  · exact hp
  · exact h u

theorem next_lin {ru : Rules} (hru : ru.addMissing = true) {c s t a s' o st} {tr : List KObs} (hn : Next c s t a s' o) (hP : OwnErrors s t a)
    (h : LinRel c s st) (ha : Atomic ru st (Lin.ofKObs tr)) : ∃ st', Atomic ru st' (Lin.ofKObs (o :: tr)) ∧ LinRel c s' st' := by
  obtain ⟨p, calls⟩ := st
  obtain ⟨h1, h2, h3⟩ := h
  dsimp only at h1 h2
  -- nothing that concerns the calls
  have tau : ∀ {o : KObs} {k n l} {q : Pc}, Lin.ofKObs (o :: tr) = Lin.ofKObs tr → linAt q = linAt (s.pc t) → LinOk c q →
      ∃ st', Atomic ru st' (Lin.ofKObs (o :: tr)) ∧ LinRel c ⟨k, s.sources, n, l, upd s.pc t q⟩ st' := by
    intro o k n l q e hq hk
    refine ⟨⟨p, calls⟩, by rw [e]; exact ha, h1, fun u => ?_, upd_linOk h3 t hk⟩
    dsimp only
    rw [h2]; unfold upd; split
    · next e => rw [e, hq]
    · rfl
  have same : ∀ {o : KObs} {k n l}, Lin.ofKObs (o :: tr) = Lin.ofKObs tr →
      ∃ st', Atomic ru st' (Lin.ofKObs (o :: tr)) ∧ LinRel c ⟨k, s.sources, n, l, s.pc⟩ st' := by
    intro o k n l e
    exact ⟨⟨p, calls⟩, by rw [e]; exact ha, h1, h2, h3⟩
  -- a call returns after its effect
  have late : ∀ {call : Call} {r : Ret} {kd b af}, linAt (s.pc t) = some ⟨kd, sourceOf call, some (b, af)⟩ → accessible c call = true →
      Allowed ru kd (ofKRet r) b af (s.sources (sourceOf call)) →
      ∃ st', Atomic ru st' (Lin.ofKObs (.ret t call r :: tr)) ∧ LinRel c { s with pc := upd s.pc t .out } st' := by
    intro call r kd b af e hacc hal
    have hc : calls t = _ := (h2 t).trans e
    refine ⟨⟨p, put calls t none⟩, ?_, h1, put_calls h2 t rfl, upd_linOk h3 t trivial⟩
    simp only [Lin.ofKObs]
    rw [addRet_some ha hc]
    exact Atomic.ret ha hc (by dsimp only; rw [h1 _ (acc_source hacc)]; exact hal)
  -- a call returns and has no effect
  have look : ∀ {call : Call} {r : Ret} {kd}, linAt (s.pc t) = some ⟨kd, sourceOf call, none⟩ → accessible c call = true →
      Allowed ru kd (ofKRet r) (s.sources (sourceOf call)) (s.sources (sourceOf call)) (s.sources (sourceOf call)) →
      ∃ st', Atomic ru st' (Lin.ofKObs (.ret t call r :: tr)) ∧ LinRel c { s with pc := upd s.pc t .out } st' := by
    intro call r kd e hacc hal
    have hc : calls t = _ := (h2 t).trans e
    refine ⟨⟨p, put calls t none⟩, ?_, h1, put_calls h2 t rfl, upd_linOk h3 t trivial⟩
    simp only [Lin.ofKObs]
    rw [addRet_some ha hc]
    exact Atomic.look ha hc (by rw [h1 _ (acc_source hacc)]; exact hal)
  have refuse : ∀ {call : Call} {r : Ret}, s.pc t = .out → Lin.ofKObs (.ret t call r :: tr) = Lin.ofKObs tr := by
    intro call r e
    simp only [Lin.ofKObs]
    exact addRet_none ha (by dsimp only; rw [h2, e]; rfl)
  -- the call has its effect now
  have effect : ∀ {call : Call} {kd} {q : Pc} {o : KObs} {src} (af : Bool), Lin.ofKObs (o :: tr) = Lin.ofKObs tr →
      linAt (s.pc t) = some ⟨kd, sourceOf call, none⟩ → accessible c call = true →
      linAt q = some ⟨kd, sourceOf call, some (s.sources (sourceOf call), af)⟩ → LinOk c q →
      (∀ y, src y = if y = sourceOf call then af else s.sources y) →
      ∃ st', Atomic ru st' (Lin.ofKObs (o :: tr)) ∧ LinRel c { s with sources := src, pc := upd s.pc t q } st' := by
    intro call kd q o src af eo e hacc hq hk hsrc
    have hc : calls t = _ := (h2 t).trans e
    refine ⟨_, by rw [eo]; exact Atomic.effect af ha hc, fun y hy => ?_, put_calls h2 t ?_, upd_linOk h3 t hk⟩
    · dsimp only; rw [hsrc, put_sources _ _ h1 y hy]
    · dsimp only; rw [hq, h1 _ (acc_source hacc)]
  have hk := h3 t
  have chg : ∀ {ev errno}, Lin.ofKObs (changeObs t ev errno :: tr) = Lin.ofKObs tr := by
    intro ev errno; unfold changeObs; split
    · rfl
    · split <;> rfl
  have failOwn : ∀ {w r}, Fin s t a w r → r ≠ .err .alreadyExists ∧ r ≠ .err .notFound := by
    intro w r hf
    cases hf with
    | eval => exact submitResult_own _
    | fail =>
      refine ⟨fun e => ?_, fun e => ?_⟩
      · injection e with e; exact hP.1 e
      · injection e with e; exact hP.2 e
  cases hn with
  | reject hp => exact ⟨_, by rw [refuse hp]; exact ha, h1, h2, h3⟩
  | panic0 hp => exact ⟨_, by rw [refuse hp]; exact ha, h1, h2, h3⟩
  | @begin call hp hacc =>
    refine ⟨_, Atomic.begin ha (by dsimp only; rw [h2, hp]; rfl), h1, put_calls h2 t linAt_first.symm, upd_linOk h3 t ?_⟩
    cases call <;> first | exact ⟨rfl, hacc⟩ | exact hacc
  | @dup call hp hs =>
    rw [hp] at hk
    exact look (call := call) (by rw [hp]; rfl) hk.2 (by rw [sourceOf_eq, hs]; exact ⟨rfl, rfl⟩)
  | @inserted call hp hs =>
    rw [hp] at hk
    refine effect (call := call) true rfl (by rw [hp]; rfl) hk.2 ?_ hk.2 (fun y => by rw [sourceOf_eq])
    simp only [linAt, hk.1, if_true]
    rw [sourceOf_eq, hs]
  | @missing call hp hs =>
    rcases hp with hp | hp
    · rw [hp] at hk
      cases hkd : kindK call with
      | add =>
        refine late (call := call) (kd := .add) (b := false) (af := true) ?_ hk ⟨hru, rfl, rfl, by rw [sourceOf_eq]; exact hs⟩
        rw [hp]; simp only [linAt, hkd, if_true]
      | modify =>
        refine look (call := call) (kd := .modify) ?_ hk (by rw [sourceOf_eq, hs]; exact ⟨rfl, rfl⟩)
        rw [hp]; simp only [linAt, hkd]; rfl
      | delete =>
        refine look (call := call) (kd := .delete) ?_ hk (by rw [sourceOf_eq, hs]; exact ⟨rfl, rfl⟩)
        rw [hp]; simp only [linAt, hkd]; rfl
    · rw [hp] at hk
      exact look (call := call) (kd := .delete) (by rw [hp]; rfl) hk.2 (by rw [sourceOf_eq, hs]; exact ⟨rfl, rfl⟩)
  | @panic call hp hs hv =>
    rw [hp] at hk
    cases hkd : kindK call with
    | add =>
      refine late (call := call) (kd := .add) (b := false) (af := true) ?_ hk (.inr rfl)
      rw [hp]; simp only [linAt, hkd, if_true]
    | modify =>
      refine look (call := call) (kd := .modify) ?_ hk rfl
      rw [hp]; simp only [linAt, hkd]; rfl
    | delete =>
      refine look (call := call) (kd := .delete) ?_ hk (.inl rfl)
      rw [hp]; simp only [linAt, hkd]; rfl
  | @has call hp hs hv =>
    rw [hp] at hk
    cases hkd : kindK call with
    | add => exact tau rfl (by rw [hp]; simp only [linAt, hkd, if_true]) hk
    | modify =>
      refine effect (call := call) (kd := .modify) true rfl ?_ hk ?_ hk (fun y => ?_)
      · rw [hp]; simp only [linAt, hkd]; rfl
      · simp only [linAt, hkd]; rw [sourceOf_eq, hs]
      · split
        · next e => rw [e, sourceOf_eq, hs]
        · rfl
    | delete => exact tau rfl (by rw [hp]; simp only [linAt, hkd]; rfl) hk
  | @removed call hp hs =>
    rw [hp] at hk
    refine effect (call := call) (kd := .delete) false rfl (by rw [hp]; rfl) hk.2 ?_ hk (fun y => by rw [sourceOf_eq])
    simp only [linAt]
    rw [sourceOf_eq, hs]
  | @ended call hp =>
    rw [hp] at hk
    exact late (call := call) (kd := .delete) (b := true) (af := false) (by rw [hp]; rfl) hk.2 ⟨rfl, .inl rfl⟩
  | wMissing hp => exact tau rfl (by rw [hp]; rfl) trivial
  | wHas hp => exact tau rfl (by rw [hp]; rfl) trivial
  | @change fault w ev todo done errno k hp =>
    rw [hp] at hk
    exact tau chg (by rw [hp]; cases w <;> rfl) (by cases w <;> first | exact hk | trivial)
  | @finCall _ call r hf hr =>
    obtain ⟨todo, done, hp⟩ := hf.pc
    have ⟨ho1, ho2⟩ := failOwn hf
    rw [hp] at hk
    have hor := ofRes_own ho1 ho2
    cases hkd : kindK call with
    | add =>
      refine late (call := call) (kd := .add) (b := false) (af := true) ?_ hk ?_
      · rw [hp]; simp only [linAt, hkd]
      · simp only [ofKRet, hor]; split
        · exact ⟨rfl, rfl⟩
        · exact .inr rfl
    | modify =>
      refine late (call := call) (kd := .modify) (b := true) (af := true) ?_ hk ?_
      · rw [hp]; simp only [linAt, hkd]
      · simp only [ofKRet, hor]; split
        · exact ⟨rfl, rfl⟩
        · exact rfl
    | delete =>
      refine look (call := call) (kd := .delete) ?_ hk ?_
      · rw [hp]; simp only [linAt, hkd]
      · simp only [ofKRet, hor]
        have : r ≠ .ok := fun e => by
          have h5 := hr e
          rw [(isDelete_kind call).2 hkd] at h5; cases h5
        rw [if_neg this]; exact .inl rfl
  | @finDelete _ call hf hd =>
    obtain ⟨todo, done, hp⟩ := hf.pc
    rw [hp] at hk
    have hkd := (isDelete_kind call).1 hd
    exact tau rfl (by rw [hp]; simp only [linAt, hkd]) ⟨hkd, hk⟩
  | finNotify hf => obtain ⟨todo, done, hp⟩ := hf.pc; exact tau rfl (by rw [hp]; rfl) trivial
  | finRearm hf => obtain ⟨todo, done, hp⟩ := hf.pc; exact tau rfl (by rw [hp]; rfl) trivial
  | rearmRetry hf => obtain ⟨todo, done, hp⟩ := hf.pc; exact tau rfl (by rw [hp]; rfl) trivial
  | rearmErr hf => obtain ⟨todo, done, hp⟩ := hf.pc; exact tau rfl (by rw [hp]; rfl) trivial
  | kevRetry => exact same rfl
  | kevErr hp => exact tau rfl (by rw [hp]; rfl) trivial
  | casSeen => exact same rfl
  | casUser hp => exact tau rfl (by rw [hp]; rfl) trivial
  | casPair hp => exact tau rfl (by rw [hp]; rfl) trivial
  | writeFail hp => exact tau rfl (by rw [hp]; rfl) trivial
  | write hp => exact tau rfl (by rw [hp]; rfl) trivial
  | waitBusy => exact same rfl
  | waitBegin hp => exact tau rfl (by rw [hp]; rfl) trivial
  | kevent hp => exact tau rfl (by rw [hp]; split <;> rfl) (by split <;> trivial)
  | read => exact same rfl
  | readEnd hp => exact tau rfl (by rw [hp]; rfl) trivial
  | finish hp => exact tau rfl (by rw [hp]; rfl) trivial
  | raise => exact same rfl
  | fall => exact same rfl

theorem reach_lin {ru : Rules} (hru : ru.addMissing = true) {c s tr} (h : Reach c OwnErrors s tr) :
    ∃ st, Atomic ru st (Lin.ofKObs tr) ∧ LinRel c s st := by
  induction h with
  | init cond =>
    refine ⟨_, .init, fun x hx => ?_, fun t => ?_, fun t => ?_⟩
    · unfold init; split
      · rfl
      · next hu =>
        dsimp only
        have : x ≠ .fd c.notifFd := hx.resolve_left hu
        simp [this]
    · unfold init; split <;> rfl
    · unfold init; split <;> trivial
  | step _ hp hs ih =>
    obtain ⟨st, ha, hr⟩ := ih
    exact next_lin hru (step_next hs).2 hp hr ha

end Polling.KqM
