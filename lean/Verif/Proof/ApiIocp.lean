import Verif.Spec.ApiView
import Verif.Proof.ApiKq
import Verif.Proof.IocpPost
import Verif.Props.IocpDelivery

/-! The portable contract on Windows: the marks of a run. -/

namespace Polling.Api
open IocpM Iocp IocpSpec

def isDel : IocpSpec.Call → Bool
  | .delete _ _ => true
  | _ => false

/-- The observation is not of a registration call. -/
def Other : IObs → Prop
  | .begin .. | .ret .. | .inserted .. | .changed .. | .removed .. | .deleted .. => False
  | _ => True

/-- The steps by what they mean for registration calls. -/
inductive Cls (s : S) : Act → IObs → S → Prop
  | other {a o s'} (ho : Other o) (hpc : ∀ t, s'.pc t = s.pc t ∨ ((s'.pc t).call? = none ∧ (s.pc t).call? = none))
      (hph : s'.phase ≠ .idle → s.phase ≠ .idle ∨ o = .waitBegin)
      (hok : ∀ n evs, o = .waitOk n evs → s.phase ≠ .idle ∧ s'.phase = .idle) (herr : ∀ e, o = .waitErr e → s'.phase = .idle) :
      Cls s a o s'
  | refuse {a t call r} (hp : s.pc t = .out) : Cls s a (.ret t call r) s
  | begin {a t call s'} (p : Pc) (hp : s.pc t = .out) (h : (p = .prepare call ∧ isDel call = false) ∨ p = .table call) (hpc : s'.pc = upd s.pc t p) (hph : s'.phase = s.phase) :
      Cls s a (.begin t call) s'
  | fail {a t call s' e} (hp : s.pc t = .prepare call ∨ (s.pc t = .table call ∧ isDel call = false)) (hpc : s'.pc = upd s.pc t .out)
      (hph : s'.phase = s.phase) : Cls s a (.ret t call (.err e)) s'
  | ready {a t call s'} (hp : s.pc t = .prepare call) (hpc : s'.pc = upd s.pc t (.table call)) (hph : s'.phase = s.phase) : Cls s a .tau s'
  | insert {a t k fd ev mode p s'} (hp : s.pc t = .table (.add k fd ev mode)) (hpc : s'.pc = upd s.pc t (.upd (.add k fd ev mode) (.load p)))
      (ht : s.c.table k fd = none) (hph : s'.phase = s.phase) : Cls s a (.inserted t k fd p ev mode) s'
  | found {a t k fd ev mode p s'} (hp : s.pc t = .table (.modify k fd ev mode)) (hpc : s'.pc = upd s.pc t (.set (.modify k fd ev mode) p))
      (ht : s.c.table k fd = some p) (hph : s'.phase = s.phase) : Cls s a .tau s'
  | gone {a t k fd s'} (hp : s.pc t = .table (.delete k fd)) (hpc : s'.pc = upd s.pc t .out) (ht : s.c.table k fd = none)
      (hph : s'.phase = s.phase) : Cls s a (.ret t (.delete k fd) .ok) s'
  | remove {a t k fd p s'} (hp : s.pc t = .table (.delete k fd)) (hpc : s'.pc = upd s.pc t (.del (.delete k fd) p)) (ht : s.c.table k fd = some p)
      (hph : s'.phase = s.phase) : Cls s a (.removed t k fd p) s'
  | change {a t k fd ev mode p s'} (q : Pc) (hp : s.pc t = .set (.modify k fd ev mode) p) (hpc : s'.pc = upd s.pc t q)
      (hq : q = .upd (.modify k fd ev mode) (.load p) ∨ q = .ret (.modify k fd ev mode) .ok) (hph : s'.phase = s.phase) :
      Cls s a (.changed t k fd p ev mode) s'
  | delete {a t call p r s'} (hp : s.pc t = .del call p) (hpc : s'.pc = upd s.pc t .out) (hph : s'.phase = s.phase) :
      Cls s a (.deleted t (callSock call) (callFd call) p r) s'
  | work {a t call u u' o s'} (hp : s.pc t = .upd call u) (hpc : s'.pc = upd s.pc t (.upd call u')) (ho : UObs o) (hph : s'.phase = s.phase) :
      Cls s a o s'
  | worked {t call u r o s' fault c} (hp : s.pc t = .upd call u) (hpc : s'.pc = upd s.pc t (.ret call r)) (ho : UObs o)
      (hu : ustep fault s.c u = (c, .done r, o)) (hph : s'.phase = s.phase) : Cls s (.go t fault) o s'
  | ret {a t call r s'} (hp : s.pc t = .ret call r) (hpc : s'.pc = upd s.pc t .out) (hph : s'.phase = s.phase) : Cls s a (.ret t call r) s'

theorem other_of_uobs {o : IObs} (h : UObs o) : Other o := by cases o <;> first | trivial | exact absurd h id

theorem step_cls {n : Nat} {s s' : S} {a : Act} {o : IObs} (hs : step n s a = some (s', o)) : Cls s a o s' := by
  have inwait : ∀ {s1 : S} {o}, s1.pc = s.pc → s.phase ≠ .idle → Other o → (∀ n evs, o = .waitOk n evs → s1.phase = .idle) →
      (∀ e, o = .waitErr e → s1.phase = .idle) → Cls s a o s1 := by
    intro s1 o h1 h2 h3 h4 h5
    exact .other h3 (fun t => .inl (by rw [h1])) (fun _ => .inl h2) (fun n evs e => ⟨h2, h4 n evs e⟩) h5
  have plain : ∀ {s1 : S} {o}, (∀ t, s1.pc t = s.pc t ∨ ((s1.pc t).call? = none ∧ (s.pc t).call? = none)) → s1.phase = s.phase → Other o →
      (∀ n evs, o ≠ .waitOk n evs) → (∀ e, o ≠ .waitErr e) → Cls s a o s1 := by
    intro s1 o h1 h2 h3 h4 h5
    exact .other h3 h1 (fun h => .inl (by rw [← h2]; exact h)) (fun n evs e => absurd e (h4 n evs)) (fun e he => absurd he (h5 e))
  have uob : ∀ {o}, UObs o → (∀ n evs, o ≠ .waitOk n evs) ∧ ∀ e, o ≠ .waitErr e := by
    intro o h
    constructor
    · rintro n evs rfl; exact h
    · rintro e rfl; exact h
  have fail : ∀ {s1 : S} {w e}, s1.pc = s.pc → s.phase ≠ .idle → some (waitFail s1 w e) = some (s', o) → Cls s a o s' := by
    intro s1 w e h1 h2 h
    unfold waitFail at h
    split at h <;> cases h
    · exact inwait h1 h2 trivial nofun nofun
    · exact inwait h1 h2 trivial nofun (fun _ _ => rfl)
  cases a with
  | call t call =>
    simp only [step] at hs
    split at hs
    · cases hs
    split at hs
    · rename_i hp
      split at hs
      · cases hs
      split at hs
      · cases hs; exact .refuse hp
      split at hs
      · cases hs; exact .refuse hp
      cases hs
      refine .begin _ hp ?_ rfl rfl
      split
      · exact .inl ⟨rfl, rfl⟩
      · exact .inr rfl
    · cases hs
  | go t fault =>
    simp only [step, goCall] at hs
    split at hs
    · cases hs
    split at hs
    · rename_i hp
      split at hs <;> cases hs
      · exact .fail (.inl hp) rfl rfl
      · exact .ready hp rfl rfl
    · rename_i hp
      split at hs
      · split at hs
        · cases hs; exact .fail (.inr ⟨hp, rfl⟩) rfl rfl
        · rename_i ht; cases hs; exact .insert hp rfl ht rfl
      · split at hs
        · cases hs; exact .fail (.inr ⟨hp, rfl⟩) rfl rfl
        · rename_i ht; cases hs; exact .found hp rfl ht rfl
      · split at hs
        · rename_i ht; cases hs; exact .gone hp rfl ht rfl
        · rename_i ht; cases hs; exact .remove hp rfl ht rfl
    · rename_i hp
      split at hs
      · cases hs
        refine .change _ hp rfl ?_ rfl
        split
        · exact .inl rfl
        · exact .inr rfl
      · cases hs
    · rename_i hp; cases hs; exact .delete hp rfl rfl
    · rename_i hp
      split at hs
      · rename_i hu; cases hs; exact .work hp rfl (uobs_ustep hu) rfl
      · rename_i hu; cases hs; exact .worked hp rfl (uobs_ustep hu) hu rfl
    · rename_i hp; cases hs; exact .ret hp rfl rfl
    · cases hs
  | notifyCas t =>
    simp only [step] at hs
    split at hs
    · cases hs
    split at hs
    · rename_i hp
      split at hs <;> cases hs
      · exact plain (fun _ => .inl rfl) rfl trivial nofun nofun
      · refine plain (fun u => ?_) rfl trivial nofun nofun
        by_cases e : u = t
        · subst e; right; dsimp only; rw [upd_self, hp]; exact ⟨rfl, rfl⟩
        · left; exact upd_other _ _ e
    · cases hs
  | notifyPost t fault =>
    simp only [step] at hs
    split at hs
    · rename_i hp
      have : ∀ u, (upd s.pc t .out) u = s.pc u ∨ (((upd s.pc t .out) u).call? = none ∧ (s.pc u).call? = none) := by
        intro u
        by_cases e : u = t
        · subst e; right; rw [upd_self, hp]; exact ⟨rfl, rfl⟩
        · left; exact upd_other _ _ e
      split at hs <;> cases hs
      · exact plain this rfl trivial nofun nofun
      · exact plain this rfl trivial nofun nofun
    · cases hs
  | waitBegin timed cap =>
    simp only [step] at hs
    split at hs
    · split at hs
      · cases hs
      · cases hs
        exact .other trivial (fun _ => .inl rfl) (fun _ => .inr rfl) nofun nofun
    · cases hs
  | wait fault =>
    simp only [step, goWait] at hs
    split at hs
    · rename_i hph; cases hs; exact inwait rfl (by rw [hph]; nofun) trivial nofun nofun
    · rename_i hph; cases hs; exact inwait rfl (by rw [hph]; nofun) trivial nofun nofun
    · rename_i hph; split at hs <;> (cases hs; exact inwait rfl (by rw [hph]; nofun) trivial nofun nofun)
    · rename_i w q hph
      split at hs <;> (rename_i m _; cases hs; have hu := uobs_updateObs q m
                       exact inwait rfl (by rw [hph]; nofun) (other_of_uobs hu) (fun n evs e => absurd e ((uob hu).1 n evs)) (fun x e => absurd e ((uob hu).2 x)))
    · rename_i hph; cases hs; exact inwait rfl (by rw [hph]; nofun) trivial nofun nofun
    · rename_i hph; refine fail ?_ (by rw [hph]; nofun) hs; rfl
    · rename_i hph; refine fail ?_ (by rw [hph]; nofun) hs; rfl
    · rename_i hph; cases hs; exact inwait rfl (by rw [hph]; nofun) trivial nofun nofun
    · rename_i hph
      split at hs
      · cases hs; exact inwait rfl (by rw [hph]; nofun) trivial nofun nofun
      · cases hs; exact inwait rfl (by rw [hph]; nofun) trivial nofun nofun
      · cases hs; exact inwait rfl (by rw [hph]; nofun) trivial nofun nofun
      · cases hs; exact inwait rfl (by rw [hph]; nofun) trivial nofun nofun
      · rename_i ev _ _; cases ev <;> (cases hs; exact inwait rfl (by rw [hph]; nofun) trivial nofun nofun)
    · rename_i hph
      split at hs <;> (rename_i hu; cases hs; have hu := uobs_ustep hu
                       exact inwait rfl (by rw [hph]; nofun) (other_of_uobs hu) (fun n evs e => absurd e ((uob hu).1 n evs)) (fun x e => absurd e ((uob hu).2 x)))
    · rename_i hph; cases hs; exact inwait rfl (by rw [hph]; nofun) trivial (fun _ _ _ => rfl) nofun
    · cases hs
  | get =>
    simp only [step] at hs
    split at hs
    · rename_i hph
      split at hs <;> cases hs
      exact inwait rfl (by rw [hph]; nofun) trivial nofun nofun
    · cases hs
  | getFail e =>
    simp only [step] at hs
    split at hs
    · rename_i hph; cases hs; exact inwait rfl (by rw [hph]; nofun) trivial nofun nofun
    · cases hs
  | decide expired =>
    simp only [step] at hs
    split at hs
    · rename_i hph
      split at hs <;> cases hs
      · exact inwait rfl (by rw [hph]; nofun) trivial nofun nofun
      · exact inwait rfl (by rw [hph]; nofun) trivial nofun nofun
    · cases hs
  | _ =>
    simp only [step] at hs
    repeat' split at hs
    all_goals cases hs
    all_goals exact plain (fun _ => .inl rfl) rfl trivial nofun nofun

/-- A call of `t` takes effect. -/
def effI (m : List Mark) (t : Tid) : List Mark :=
  match busy m t with
  | some call => .eff t call false :: m
  | none => m

/-- An `add` or `modify` takes effect when it enters the source into the table, or changes the packet; a `delete` when it ends. -/
def marksI : List IObs → List Mark
  | [] => []
  | .begin t call :: tr =>
    match ofICall call with
    | some c => .vis (.begin t c) :: marksI tr
    | none => marksI tr
  | .ret t call r :: tr =>
    if busy (marksI tr) t = none then marksI tr
    else .vis (.ret t (r == .ok)) :: (if isDel call then effI (marksI tr) t else marksI tr)
  | .deleted t _ _ _ r :: tr => if busy (marksI tr) t = none then marksI tr else .vis (.ret t (r == .ok)) :: effI (marksI tr) t
  | .inserted t _ _ _ _ _ :: tr => effI (marksI tr) t
  | .changed t _ _ _ _ _ :: tr => effI (marksI tr) t
  | .deliver _ fd _ ev :: tr => .take fd false ev.key :: marksI tr
  | .waitBegin :: tr => .vis .waitBegin :: marksI tr
  | .waitOk _ evs :: tr => .vis (.waitOk (evs.map view)) :: marksI tr
  | .waitErr _ :: tr => .vis .waitErr :: marksI tr
  | _ :: tr => marksI tr

theorem erase_effI (m : List Mark) (t : Tid) : erase (effI m t) = erase m := by unfold effI; split <;> rfl

theorem erase_marksI (tr : List IObs) : erase (marksI tr) = ofIObs tr := by
  induction tr with
  | nil => rfl
  | cons o tr ih =>
    cases o
    case begin t call => cases hc : ofICall call <;> simp only [marksI, ofIObs, hc, erase, ih]
    case ret t call r =>
      simp only [marksI, ofIObs]
      rw [busy_erase, ih]
      split
      · exact ih
      · simp only [erase]
        split <;> simp only [erase_effI, ih]
    case deleted t k fd p r =>
      simp only [marksI, ofIObs]
      rw [busy_erase, ih]
      split
      · exact ih
      · simp only [erase, erase_effI, ih]
    case inserted => simp only [marksI, ofIObs]; rw [erase_effI, ih]
    case changed => simp only [marksI, ofIObs]; rw [erase_effI, ih]
    all_goals simp only [marksI, ofIObs, erase, ih]

/-- How far the call at a position has taken effect. -/
def PosI (strict : Prop) (m : List Mark) (t : Tid) : Pc → Prop
  | .prepare call => done m t false = false ∧ isDel call = false
  | .table _ => done m t false = false
  | .set _ _ => done m t false = false
  | .del call _ => done m t false = false ∧ isDel call = true
  | .upd call _ => done m t false = true ∧ isDel call = false
  | .ret call r => done m t false = true ∧ isDel call = false ∧ (strict → r = .ok)
  | .out | .notify => True

/-- What the table has at a position. -/
def LookI (tr : List IObs) : Pc → Prop
  | .set call p => registered tr true (callFd call) = some p
  | .del call _ => registered tr true (callFd call) = none
  | _ => True

/-- Why a registration can deliver events. -/
def NoteI (s : S) (tr : List IObs) (m : List Mark) (p : PId) (q : Reg) : Prop :=
  lastEff m q.fd false = some (.set q.fd q.ev.key (Spec.oneshot q.mode)) ∧ fresh m q.fd false = !q.fired ∧
    (registered tr true q.fd = some p ∨ ∃ t call, s.pc t = .del call p ∧ callFd call = q.fd)

structure IInv (strict once : Prop) (s : S) (tr : List IObs) (m : List Mark) : Prop where
  wf : WF [false] strict once m
  busy : ∀ t, busy m t = (s.pc t).call?.bind ofICall
  port : ∀ t call, (s.pc t).call? = some call → ofICall call ≠ none
  one : ∀ t u c d, (s.pc t).call? = some c → (s.pc u).call? = some d → callFd c = callFd d → t = u
  pos : ∀ t, PosI strict m t (s.pc t)
  look : ∀ t, LookI tr (s.pc t)
  sock : ∀ p q, reg tr p = some q → q.sock = true ∧ (once → Spec.oneshot q.mode = true)
  note : ∀ p q, reg tr p = some q → q.ended = false → NoteI s tr m p q
  pend : s.phase ≠ .idle → ∃ rest, pend m = ((found tr).map fun e => (false, e.key)).reverse ++ rest

theorem ofICall_fd {call : IocpSpec.Call} {c : Call} (h : ofICall call = some c) : c.fd = callFd call ∧ callSock call = true := by
  cases call with
  | add k fd ev mode => cases k <;> cases h; exact ⟨rfl, rfl⟩
  | modify k fd ev mode => cases k <;> cases h; exact ⟨rfl, rfl⟩
  | delete k fd => cases k <;> cases h; exact ⟨rfl, rfl⟩

/-- A thread in a call for a source is the only one that can be about to end a registration of it. -/
theorem IInv.at {strict once : Prop} {s : S} {tr : List IObs} {m : List Mark} (h : IInv strict once s tr m) {t : Tid} {c : IocpSpec.Call}
    (hc : (s.pc t).call? = some c) {p : PId} {q : Reg} (hr : reg tr p = some q) (he : q.ended = false) (hf : q.fd = callFd c) :
    registered tr true (callFd c) = some p ∨ ∃ call, s.pc t = .del call p := by
  rcases (h.note p q hr he).2.2 with h1 | ⟨u, call, h1, h2⟩
  · exact .inl (by rw [← hf]; exact h1)
  · have : u = t := h.one u t call c (by rw [h1]; rfl) hc (by rw [h2, hf])
    subst this
    exact .inr ⟨call, h1⟩

theorem IInv.unique {strict once : Prop} {s : S} {tr : List IObs} {m : List Mark} (h : IInv strict once s tr m) {p p' : PId} {q q' : Reg}
    (hr : reg tr p = some q) (he : q.ended = false) (hr' : reg tr p' = some q') (he' : q'.ended = false) (hf : q.fd = q'.fd) : p = p' := by
  rcases (h.note p q hr he).2.2 with h1 | ⟨u, call, h1, h2⟩ <;> rcases (h.note p' q' hr' he').2.2 with h3 | ⟨v, call', h3, h4⟩
  · rw [hf, h3] at h1; cases h1; rfl
  · have := h.look v
    rw [h3] at this
    dsimp only [LookI] at this
    rw [h4, ← hf, h1] at this; cases this
  · have := h.look u
    rw [h1] at this
    dsimp only [LookI] at this
    rw [h2, hf, h3] at this; cases this
  · have : u = v := h.one u v call call' (by rw [h1]; rfl) (by rw [h3]; rfl) (by rw [h2, h4, hf])
    subst this
    rw [h1] at h3; cases h3; rfl

theorem posI_congr {strict : Prop} {m m' : List Mark} {t : Tid} {p : Pc} (h : done m' t false = done m t false) (hp : PosI strict m t p) :
    PosI strict m' t p := by
  cases p <;> simp only [PosI] at * <;> first | trivial | (rw [h]; exact hp)

/-- A step of a registration call of `t` after its beginning. -/
theorem IInv.call {strict once : Prop} {s s' : S} {tr : List IObs} {o : IObs} {m m' : List Mark} (h : IInv strict once s tr m) (t : Tid) (p : Pc)
    (hpc : s'.pc = upd s.pc t p) (hph : s'.phase = s.phase) (wf : WF [false] strict once m')
    (hb : ∀ u, u ≠ t → Api.busy m' u = Api.busy m u) (hd : ∀ u, u ≠ t → done m' u false = done m u false)
    (hbt : Api.busy m' t = p.call?.bind ofICall) (hcall : p.call? = none ∨ p.call? = (s.pc t).call?)
    (hpos : PosI strict m' t p) (hlook : LookI (o :: tr) p)
    (hreg : ∀ fd, registered (o :: tr) true fd = registered tr true fd ∨ ∃ call, (s.pc t).call? = some call ∧ callFd call = fd)
    (hsock : ∀ p q, reg (o :: tr) p = some q → q.sock = true ∧ (once → Spec.oneshot q.mode = true))
    (hnote : ∀ p q, reg (o :: tr) p = some q → q.ended = false → NoteI s' (o :: tr) m' p q)
    (hpe : Api.pend m' = Api.pend m) (hf : NoFind o) : IInv strict once s' (o :: tr) m' := by
  have hself : s'.pc t = p := by rw [hpc, upd_self]
  have hother : ∀ u, u ≠ t → s'.pc u = s.pc u := fun u e => by rw [hpc, upd_other _ _ e]
  have hsub : ∀ u c, (s'.pc u).call? = some c → (s.pc u).call? = some c := by
    intro u c hc
    by_cases e : u = t
    · subst e
      rw [hself] at hc
      rcases hcall with h' | h' <;> rw [h'] at hc
      · cases hc
      · exact hc
    · rwa [hother u e] at hc
  refine ⟨wf, ?_, fun u c hc => h.port u c (hsub u c hc), fun u v c d hc hd => h.one u v c d (hsub u c hc) (hsub v d hd), ?_, ?_, hsock, hnote, ?_⟩
  · intro u
    by_cases e : u = t
    · subst e; rw [hself]; exact hbt
    · rw [hother u e, hb u e]; exact h.busy u
  · intro u
    by_cases e : u = t
    · subst e; rw [hself]; exact hpos
    · rw [hother u e]; exact posI_congr (hd u e) (h.pos u)
  · intro u
    by_cases e : u = t
    · subst e; rw [hself]; exact hlook
    · rw [hother u e]
      have hl := h.look u
      cases hpu : s.pc u with
      | set call q =>
        rw [hpu] at hl
        rcases hreg (callFd call) with h' | ⟨c, h1, h2⟩
        · exact h'.trans hl
        · exact absurd (h.one u t call c (by rw [hpu]; rfl) h1 h2.symm) e
      | del call q =>
        rw [hpu] at hl
        rcases hreg (callFd call) with h' | ⟨c, h1, h2⟩
        · exact h'.trans hl
        · exact absurd (h.one u t call c (by rw [hpu]; rfl) h1 h2.symm) e
      | _ => trivial
  · intro hne
    rw [hph] at hne
    rw [found_noFind hf, hpe]
    exact h.pend hne

/-- What is noted of a registration stays, in a step of another thread or one for another source. -/
theorem noteI_keep {s s' : S} {tr : List IObs} {o : IObs} {m m' : List Mark} {t : Tid} {p : Pc} {x : PId} {q : Reg} (h : NoteI s tr m x q)
    (hpc : s'.pc = upd s.pc t p) (h1 : lastEff m' q.fd false = lastEff m q.fd false) (h2 : fresh m' q.fd false = fresh m q.fd false)
    (h3 : registered (o :: tr) true q.fd = registered tr true q.fd) (h4 : ∀ call, s.pc t = .del call x → callFd call ≠ q.fd) :
    NoteI s' (o :: tr) m' x q := by
  obtain ⟨a, b, c⟩ := h
  refine ⟨by rw [h1]; exact a, by rw [h2]; exact b, ?_⟩
  rcases c with c | ⟨u, call, c, d⟩
  · exact .inl (by rw [h3]; exact c)
  · refine .inr ⟨u, call, ?_, d⟩
    have : u ≠ t := by rintro rfl; exact h4 call c d
    rw [hpc, upd_other _ _ this]; exact c

/-- The OS accepts the operations started by registration calls.  (The load of `polling` may be stale.) -/
def Starts (s : S) : Act → Prop
  | .go t (some _) => ∀ call u, s.pc t = .upd call u → ∃ p, u = .load p
  | _ => True

theorem count_found {l : List (Event EventExtra)} (k : Key) (f : Event EventExtra → Bool) :
    ((l.filter f).map view).countP (fun e => e.readable && e.key == k) ≤ (l.map fun e => (false, e.key)).count (false, k) := by
  induction l with
  | nil => simp
  | cons e l ih =>
    rw [List.map_cons, List.count_cons]
    rw [List.filter_cons]
    have : (if (e.readable && e.key == k) = true then 1 else 0) ≤ if ((false, e.key) == ((false, k) : Bool × Key)) = true then 1 else 0 := by
      by_cases hk : e.key = k
      · subst hk
        simp only [beq_self_eq_true, if_true]
        split <;> omega
      · simp [hk]
    split
    · rw [List.map_cons, List.countP_cons]
      have h2 : (view e).readable = e.readable ∧ (view e).key = e.key := ⟨rfl, rfl⟩
      rw [h2.1, h2.2]
      omega
    · omega

theorem view_consI (o : IObs) (tr : List IObs) : ofIObs (o :: tr) = ofIObs tr ∨ ∃ x, ofIObs (o :: tr) = x :: ofIObs tr := by
  cases o
  case begin u call' => simp only [ofIObs]; split <;> first | exact .inl rfl | exact .inr ⟨_, rfl⟩
  case ret u call' r => simp only [ofIObs]; split <;> first | exact .inl rfl | exact .inr ⟨_, rfl⟩
  case deleted u k fd p r => simp only [ofIObs]; split <;> first | exact .inl rfl | exact .inr ⟨_, rfl⟩
  all_goals first | exact .inl rfl | exact .inr ⟨_, rfl⟩

/-- Sources have one part here. -/
def OnePart (m : List Mark) : Prop := ∀ o ∈ m, ∀ t c b, o = .eff t c b → b = false

theorem done_true {m : List Mark} (h : OnePart m) (t : Tid) : done m t true = false := by
  induction m with
  | nil => rfl
  | cons o m ih =>
    have ih := ih (fun o ho => h o (List.mem_cons_of_mem _ ho))
    cases o with
    | vis o => cases o <;> simp only [done] <;> first | exact ih | (split <;> first | rfl | exact ih)
    | eff u c b =>
      have := h _ List.mem_cons_self u c b rfl
      subst this
      simp only [done]
      rw [if_neg (by simp)]
      exact ih
    | take => exact ih

theorem onePart (tr : List IObs) : OnePart (marksI tr) := by
  have heff : ∀ m t, OnePart m → OnePart (effI m t) := by
    intro m t h
    unfold effI
    split
    · intro o ho u c b e
      rcases List.mem_cons.mp ho with rfl | ho
      · cases e; rfl
      · exact h o ho u c b e
    · exact h
  have hvis : ∀ m o, OnePart m → (∀ t c b, o ≠ .eff t c b) → OnePart (o :: m) := by
    intro m o h hne x hx u c b e
    rcases List.mem_cons.mp hx with rfl | hx
    · exact absurd e (hne u c b)
    · exact h x hx u c b e
  induction tr with
  | nil => intro o ho; cases ho
  | cons o tr ih =>
    cases o
    case begin t call => simp only [marksI]; split <;> first | exact hvis _ _ ih nofun | exact ih
    case ret t call r =>
      simp only [marksI]
      split
      · exact ih
      · refine hvis _ _ ?_ nofun
        split
        · exact heff _ _ ih
        · exact ih
    case deleted t k fd p r =>
      simp only [marksI]
      split
      · exact ih
      · exact hvis _ _ (heff _ _ ih) nofun
    case inserted => exact heff _ _ ih
    case changed => exact heff _ _ ih
    all_goals first | exact ih | exact hvis _ _ ih nofun

theorem next_iinv {n : Nat} {P} {strict once : Prop} {s s' : S} {tr : List IObs} {a : Act} {o : IObs} (hr : Reach n P s tr) (hPa : P s a)
    (hs : step n s a = some (s', o)) (hst : strict → Starts s a) (hport : IPortable (o :: tr)) (hone : OneAtATime (ofIObs (o :: tr)))
    (hall : once → AllOneshot (ofIObs (o :: tr))) (h : IInv strict once s tr (marksI tr)) : IInv strict once s' (o :: tr) (marksI (o :: tr)) := by
  have hr' : Reach n P s' (o :: tr) := .step hr hPa hs
  have hti := reach_ti hr
  have hcls := step_cls hs
  -- the call of a thread
  have call_of : ∀ t call, (s.pc t).call? = some call → ∃ c, ofICall call = some c ∧ Api.busy (marksI tr) t = some c := by
    intro t call hc
    cases hc0 : ofICall call with
    | none => exact absurd hc0 (h.port t call hc)
    | some c => exact ⟨c, rfl, by rw [h.busy t, hc]; exact hc0⟩
  -- a step that is not marked
  have quiet : ∀ (t : Tid) (p : Pc), UObs o → s'.pc = upd s.pc t p → s'.phase = s.phase → p.call? = (s.pc t).call? → PosI strict (marksI tr) t p → LookI tr p →
      (∀ call x, s.pc t ≠ .del call x) → IInv strict once s' (o :: tr) (marksI (o :: tr)) := by
    intro t p ho hpc hph hcall hpos hlook hnd
    have hm : marksI (o :: tr) = marksI tr := by cases o <;> first | rfl | exact absurd ho id
    have hreg : reg (o :: tr) = reg tr := by cases o <;> first | rfl | exact absurd ho id
    have hrd : registered (o :: tr) = registered tr := by cases o <;> first | rfl | exact absurd ho id
    rw [hm]
    refine h.call t p hpc hph h.wf (fun _ _ => rfl) (fun _ _ => rfl) (by rw [hcall]; exact h.busy t) (.inr hcall) hpos ?_
      (fun fd => .inl (by rw [hrd])) (by rw [hreg]; exact h.sock) ?_ rfl ho.noFind
    · cases p <;> simp only [LookI] at * <;> first | trivial | (rw [hrd]; exact hlook)
    · intro x q hx he
      rw [hreg] at hx
      exact noteI_keep (h.note x q hx he) hpc rfl rfl (by rw [hrd]) (fun call e => absurd e (hnd call x))
  -- a call takes effect
  have eff : ∀ t call, (s.pc t).call? = some call → ∃ c, ofICall call = some c ∧ effI (marksI tr) t = .eff t c false :: marksI tr ∧
      Api.busy (marksI tr) t = some c ∧
      ∀ fd, fd ≠ callFd call → lastEff (.eff t c false :: marksI tr) fd false = lastEff (marksI tr) fd false ∧
        fresh (.eff t c false :: marksI tr) fd false = fresh (marksI tr) fd false := by
    intro t call hc
    obtain ⟨c, h1, h2⟩ := call_of t call hc
    refine ⟨c, h1, by unfold effI; rw [h2], h2, ?_⟩
    intro fd hfd
    have : c.fd ≠ fd := by rw [(ofICall_fd h1).1]; exact fun e => hfd e.symm
    exact ⟨by simp [lastEff, this], by simp [fresh, this]⟩
  have done_other : ∀ {t c u}, u ≠ t → done (.eff t c false :: marksI tr) u false = done (marksI tr) u false := by
    intro t c u hu
    simp only [done]
    rw [if_neg (fun e => hu e.1.symm)]
  have mode_of : ∀ t fd k b, Api.busy (marksI tr) t = some (.set fd k b) → once → b = true := by
    intro t fd k b hb hon
    have hmem : .begin t (.set fd k b) ∈ ofIObs tr := by
      rw [← erase_marksI]
      obtain ⟨m2, m1, he, _⟩ := busy_split hb
      rw [he, erase_append]
      simp [erase]
    refine hall hon t fd k b ?_
    rcases view_consI o tr with he | ⟨x, he⟩ <;> rw [he]
    · exact hmem
    · exact List.mem_cons_of_mem _ hmem
  -- a call returns without (further) effect
  have returns : ∀ t call r, o = .ret t call r → (s.pc t).call? = some call → s'.pc = upd s.pc t .out → s'.phase = s.phase → isDel call = false →
      (r = .ok → done (marksI tr) t false = true) → (strict → r ≠ .ok → done (marksI tr) t false = false) → (∀ call x, s.pc t ≠ .del call x) →
      IInv strict once s' (o :: tr) (marksI (o :: tr)) := by
    intro t call r ho hc hpc hph hdel hok hbad hnd
    subst ho
    obtain ⟨c, h1, h2⟩ := call_of t call hc
    have hm : marksI (.ret t call r :: tr) = .vis (.ret t (r == .ok)) :: marksI tr := by
      simp only [marksI]; rw [if_neg (by rw [h2]; nofun), hdel]; rfl
    rw [hm]
    refine h.call t .out hpc hph (.cons h.wf ⟨by rw [h2]; nofun, ?_, ?_⟩) ?_ ?_ (by simp [Api.busy, Pc.call?]) (.inl rfl) trivial trivial
      (fun fd => .inl rfl) h.sock ?_ rfl trivial
    · intro hb b hb'
      simp only [List.mem_singleton] at hb'
      subst hb'
      exact hok (by simpa using hb)
    · intro hstr hb fd k b _ b'
      cases b' with
      | false => exact hbad hstr (by simpa using hb)
      | true => exact done_true (onePart tr) t
    · intro u hu; simp only [Api.busy]; rw [if_neg (fun e => hu e.symm)]
    · intro u hu; simp only [done]; rw [if_neg (fun e => hu e.symm)]
    · intro x q hx he
      exact noteI_keep (h.note x q hx he) hpc rfl rfl rfl (fun call e => absurd e (hnd call x))
  cases hcls with
  | other ho hpc hph hok herr =>
    have hcallq : ∀ u, (s'.pc u).call? = (s.pc u).call? := by
      intro u
      rcases hpc u with e | ⟨e1, e2⟩
      · rw [e]
      · rw [e1, e2]
    have hposq : ∀ m', (∀ u, done m' u false = done (marksI tr) u false) → ∀ u, PosI strict m' u (s'.pc u) := by
      intro m' hd u
      rcases hpc u with e | ⟨e1, _⟩
      · rw [e]; exact posI_congr (hd u) (h.pos u)
      · cases hpu : s'.pc u <;> rw [hpu] at e1 <;> first | trivial | cases e1
    have hrd : registered (o :: tr) = registered tr := by cases o <;> first | rfl | exact absurd ho id
    have hlookq : ∀ u, LookI (o :: tr) (s'.pc u) := by
      intro u
      rcases hpc u with e | ⟨e1, _⟩
      · rw [e]
        have := h.look u
        cases hpu : s.pc u <;> rw [hpu] at this <;> simp only [LookI] at * <;> first | trivial | (rw [hrd]; exact this)
      · cases hpu : s'.pc u <;> rw [hpu] at e1 <;> first | trivial | cases e1
    have hdelq : ∀ (x : PId) (q : Reg), (registered tr true q.fd = some x ∨ ∃ t call, s.pc t = .del call x ∧ callFd call = q.fd) →
        (registered (o :: tr) true q.fd = some x ∨ ∃ t call, s'.pc t = .del call x ∧ callFd call = q.fd) := by
      rintro x q (h1 | ⟨t, call, h1, h2⟩)
      · exact .inl (by rw [hrd]; exact h1)
      · rcases hpc t with e | ⟨_, e⟩
        · exact .inr ⟨t, call, by rw [e]; exact h1, h2⟩
        · rw [h1] at e; cases e
    -- the marks change nothing for calls
    have fin : ∀ m', marksI (o :: tr) = m' → WF [false] strict once m' → (∀ u, Api.busy m' u = Api.busy (marksI tr) u) →
        (∀ u, done m' u false = done (marksI tr) u false) → (∀ p q, reg (o :: tr) p = some q → q.sock = true ∧ (once → Spec.oneshot q.mode = true)) →
        (∀ p q, reg (o :: tr) p = some q → q.ended = false → NoteI s' (o :: tr) m' p q) →
        (s'.phase ≠ .idle → ∃ rest, Api.pend m' = ((found (o :: tr)).map fun e => (false, e.key)).reverse ++ rest) →
        IInv strict once s' (o :: tr) (marksI (o :: tr)) := by
      intro m' hm hwf hb hd hsk hn hp
      rw [hm]
      refine ⟨hwf, fun u => by rw [hb, hcallq]; exact h.busy u, fun u c hc => h.port u c (by rw [← hcallq]; exact hc),
        fun u v c d hc hd => h.one u v c d (by rw [← hcallq]; exact hc) (by rw [← hcallq]; exact hd), hposq m' hd, hlookq, hsk, hn, hp⟩
    have note_same : ∀ m', reg (o :: tr) = reg tr → (∀ fd, lastEff m' fd false = lastEff (marksI tr) fd false) →
        (∀ fd, fresh m' fd false = fresh (marksI tr) fd false) →
        ∀ p q, reg (o :: tr) p = some q → q.ended = false → NoteI s' (o :: tr) m' p q := by
      intro m' h1 h2 h3 p q hp he
      rw [h1] at hp
      obtain ⟨a, b, c⟩ := h.note p q hp he
      exact ⟨by rw [h2]; exact a, by rw [h3]; exact b, hdelq p q c⟩
    have same : marksI (o :: tr) = marksI tr → reg (o :: tr) = reg tr → found (o :: tr) = found tr → o ≠ .waitBegin →
        IInv strict once s' (o :: tr) (marksI (o :: tr)) := by
      intro h1 h2 h3 h4
      refine fin _ h1 h.wf (fun _ => rfl) (fun _ => rfl) (by rw [h2]; exact h.sock) (note_same _ h2 (fun _ => rfl) (fun _ => rfl)) ?_
      intro hne
      rw [h3]
      rcases hph hne with h5 | h5
      · exact h.pend h5
      · exact absurd h5 h4
    cases o with
    | begin => exact absurd ho id
    | ret => exact absurd ho id
    | inserted => exact absurd ho id
    | changed => exact absurd ho id
    | removed => exact absurd ho id
    | deleted => exact absurd ho id
    | received p ev =>
      exfalso
      have h1 := (List.sublist_append_left _ _).trans (reach_posts hr')
      have h2 : ∀ l : List IObs, (∀ p ev, .posted p ev ∉ l) → posts l = [] := by
        intro l
        induction l with
        | nil => intro _; rfl
        | cons x l ih =>
          intro hl
          have ih := ih (fun p ev hm => hl p ev (List.mem_cons_of_mem _ hm))
          cases x with
          | posted p ev => exact absurd List.mem_cons_self (hl p ev)
          | _ => exact ih
      rw [h2 _ hport.2] at h1
      simp [receipts] at h1
    | waitBegin =>
      refine fin _ rfl (.cons h.wf trivial) (fun _ => rfl) (fun _ => rfl) h.sock (note_same _ rfl (fun _ => rfl) (fun _ => rfl)) ?_
      intro _; exact ⟨[], rfl⟩
    | waitAgain =>
      refine fin _ rfl h.wf (fun _ => rfl) (fun _ => rfl) h.sock (note_same _ rfl (fun _ => rfl) (fun _ => rfl)) ?_
      intro _; exact ⟨_, rfl⟩
    | waitErr e =>
      refine fin _ rfl (.cons h.wf trivial) (fun _ => rfl) (fun _ => rfl) h.sock (note_same _ rfl (fun _ => rfl) (fun _ => rfl)) ?_
      intro hne; exact absurd (herr e rfl) hne
    | waitOk k evs =>
      obtain ⟨hin, hout⟩ := hok k evs rfl
      obtain ⟨hf, _⟩ := waitOk_found hr hs
      obtain ⟨rest, hpe⟩ := h.pend hin
      refine fin _ rfl (.cons h.wf ⟨?_, ?_⟩) (fun _ => rfl) (fun _ => rfl) h.sock (note_same _ rfl (fun _ => rfl) (fun _ => rfl)) ?_
      · intro e he
        obtain ⟨e1, he1, rfl⟩ := List.mem_map.mp he
        rw [hf] at he1
        refine ⟨false, ?_⟩
        rw [hpe]
        refine List.mem_append_left _ (List.mem_reverse.mpr (List.mem_map.mpr ⟨e1, (List.mem_filter.mp he1).1, rfl⟩))
      · intro _ key
        rw [hpe, List.count_append, List.count_reverse, hf]
        exact Nat.le_trans (count_found key _) (Nat.le_add_right _ _)
      · intro hne; exact absurd hout hne
    | deliver k fd p ev =>
      obtain ⟨q, h1, h2, h3, h4⟩ := C03.iocp_right_key n P s' _ hr' [] k fd p ev tr rfl
      obtain ⟨hk, hmode⟩ := h.sock p q h1
      rw [hk] at h2
      subst h2
      obtain ⟨q', h5, h6⟩ := C19.iocp_nothing_after_delete n P s' _ hr' [] true fd p ev tr rfl rfl
      rw [h1] at h5; cases h5
      obtain ⟨q', h5, h7⟩ := C15.iocp_oneshot n P s' _ hr' [] true fd p ev tr rfl rfl
      rw [h1] at h5; cases h5
      obtain ⟨n1, n2, n3⟩ := h.note p q h1 h6
      rw [h3] at n1 n2
      have hedge : edge q.mode = false := by
        have := hti.regs p
        rw [h1] at this
        cases hpk : s.c.pk p with
        | socket k => rw [hpk] at this; obtain ⟨q', e1, _, _, _, e2, _⟩ := this; cases e1; exact e2
        | waitable k => rw [hpk] at this; obtain ⟨q', e1, _, _, _, e2, _⟩ := this; cases e1; exact e2
        | _ => rw [hpk] at this; cases this
      refine fin (.take fd false ev.key :: marksI tr) rfl (.cons h.wf ⟨by simp, ⟨_, by rw [h4]; exact n1⟩, ?_⟩) (fun _ => rfl) (fun _ => rfl) ?_ ?_ ?_
      · intro hon
        rw [n2]
        have hm := hmode hon
        have hm' : q.mode = .oneshot := by
          cases hmd : q.mode <;> rw [hmd] at hm hedge <;> first | rfl | (cases hm; done) | cases hedge
        cases hfi : q.fired with
        | false => rfl
        | true => exact absurd ⟨hm', hfi⟩ h7
      · intro x q' hx
        simp only [reg] at hx
        split at hx
        · obtain ⟨q0, h8, rfl⟩ := Option.map_eq_some_iff.mp hx
          exact h.sock x q0 h8
        · exact h.sock x q' hx
      · intro x q' hx he
        simp only [reg] at hx
        split at hx
        · rename_i e
          subst e
          rw [h1] at hx
          cases hx
          refine ⟨?_, ?_, hdelq x q n3⟩
          · show lastEff (marksI tr) q.fd false = _
            rw [h3]; exact n1
          · simp [fresh, h3]
        · rename_i e
          have hne : q'.fd ≠ fd := by
            intro e'
            exact e (h.unique hx he h1 h6 (e'.trans h3.symm))
          obtain ⟨a, b, c⟩ := h.note x q' hx he
          refine ⟨a, ?_, hdelq x q' c⟩
          simp only [fresh]
          rw [if_neg (fun e => hne e.1.symm)]
          exact b
      · intro hne
        rcases hph hne with h8 | h8
        · obtain ⟨rest, h9⟩ := h.pend h8
          refine ⟨rest, ?_⟩
          simp only [Api.pend, found, List.map_append, List.reverse_append, List.map_cons, List.map_nil, List.reverse_cons, List.reverse_nil, h9]
          simp
        · cases h8
    | _ => exact same rfl rfl rfl nofun
  | @refuse _ t call r hp =>
    have hm : marksI (.ret t call r :: tr) = marksI tr := by simp only [marksI]; rw [if_pos (by rw [h.busy t, hp]; rfl)]
    rw [hm]
    exact ⟨h.wf, h.busy, h.port, h.one, h.pos, fun u => by have := h.look u; cases hpu : s.pc u <;> rw [hpu] at this <;> exact this, h.sock, h.note, h.pend⟩
  | @begin _ t call _ p hp hpp hpc hph =>
    have hc := hport.1 t call List.mem_cons_self
    cases hc0 : ofICall call with
    | none => exact absurd hc0 hc
    | some c =>
    have hm : marksI (.begin t call :: tr) = .vis (.begin t c) :: marksI tr := by simp only [marksI, hc0]
    rw [hm]
    have hself : s'.pc t = p := by rw [hpc, upd_self]
    have hother : ∀ u, u ≠ t → s'.pc u = s.pc u := fun u e => by rw [hpc, upd_other _ _ e]
    have hpcall : p.call? = some call := by rcases hpp with ⟨rfl, _⟩ | rfl <;> rfl
    have hb0 : Api.busy (marksI tr) t = none := by rw [h.busy t, hp]; rfl
    have halone : ∀ u d, (s.pc u).call? = some d → callFd d ≠ callFd call := by
      intro u d hd
      obtain ⟨c', h1, h2⟩ := call_of u d hd
      have hv : ofIObs (.begin t call :: tr) = .begin t c :: ofIObs tr := by simp only [ofIObs, hc0]
      have := hone [] t c (ofIObs tr) hv u c' (by rw [← erase_marksI, ← busy_erase]; exact h2)
      rwa [(ofICall_fd h1).1, (ofICall_fd hc0).1] at this
    refine ⟨.cons h.wf hb0, ?_, ?_, ?_, ?_, ?_, h.sock, ?_, ?_⟩
    · intro u
      by_cases e : u = t
      · subst e; rw [hself, hpcall]; simp [Api.busy, hc0]
      · rw [hother u e]; simp only [Api.busy]; rw [if_neg (fun h => e h.symm)]; exact h.busy u
    · intro u d hd
      by_cases e : u = t
      · subst e; rw [hself, hpcall] at hd; cases hd; rw [hc0]; nofun
      · rw [hother u e] at hd; exact h.port u d hd
    · intro u v d d' hd hd' hfd
      by_cases e : u = t <;> by_cases e' : v = t
      · rw [e, e']
      · subst e; rw [hself, hpcall] at hd; cases hd
        rw [hother v e'] at hd'
        exact absurd hfd.symm (halone v d' hd')
      · subst e'; rw [hself, hpcall] at hd'; cases hd'
        rw [hother u e] at hd
        exact absurd hfd (halone u d hd)
      · rw [hother u e] at hd; rw [hother v e'] at hd'; exact h.one u v d d' hd hd' hfd
    · intro u
      by_cases e : u = t
      · subst e; rw [hself]
        rcases hpp with ⟨rfl, hdel⟩ | rfl
        · exact ⟨by simp [done], hdel⟩
        · simp [PosI, done]
      · rw [hother u e]
        refine posI_congr ?_ (h.pos u)
        simp only [done]; rw [if_neg (fun h => e h.symm)]
    · intro u
      by_cases e : u = t
      · subst e; rw [hself]; rcases hpp with ⟨rfl, _⟩ | rfl <;> trivial
      · rw [hother u e]; have := h.look u; cases hpu : s.pc u <;> rw [hpu] at this <;> exact this
    · intro x q hx he
      exact noteI_keep (h.note x q hx he) hpc rfl rfl rfl (fun call e => by rw [hp] at e; cases e)
    · intro hne; rw [hph] at hne; exact h.pend hne
  | @fail _ t call _ e hp hpc hph =>
    have hpos := h.pos t
    have hc : (s.pc t).call? = some call := by rcases hp with hp | ⟨hp, _⟩ <;> rw [hp] <;> rfl
    refine returns t call _ rfl hc hpc hph ?_ nofun ?_ ?_
    · rcases hp with hp | ⟨_, hp⟩
      · rw [hp] at hpos; exact hpos.2
      · exact hp
    · intro _ _
      rcases hp with hp | ⟨hp, _⟩ <;> rw [hp] at hpos
      · exact hpos.1
      · exact hpos
    · intro c x; rcases hp with hp | ⟨hp, _⟩ <;> rw [hp] <;> nofun
  | @ready _ t call _ hp hpc hph =>
    have hpos := h.pos t
    rw [hp] at hpos
    exact quiet t _ trivial hpc hph (by rw [hp]; rfl) hpos.1 trivial (by rw [hp]; nofun)
  | @insert _ t k fd ev mode p _ hp hpc ht hph =>
    have hpos := h.pos t
    rw [hp] at hpos
    have hcall : (s.pc t).call? = some (.add k fd ev mode) := by rw [hp]; rfl
    obtain ⟨c, h1, h2, h3, h4⟩ := eff t _ hcall
    obtain ⟨hcf, hk⟩ := ofICall_fd h1
    have hk : k = true := hk
    subst hk
    have hm : marksI (.inserted t true fd p ev mode :: tr) = .eff t c false :: marksI tr := h2
    rw [hm]
    have hset : c = .set fd ev.key (Spec.oneshot mode) := by cases h1; rfl
    have hmode : once → Spec.oneshot mode = true := fun hon => mode_of t fd ev.key _ (by rw [h3, hset]) hon
    refine h.call t _ hpc hph (.cons h.wf ⟨h3, hpos⟩) (fun _ _ => rfl) (fun u hu => done_other hu) (h3.trans h1.symm) (.inr (by rw [hp]; rfl))
      ⟨by simp [done], rfl⟩ trivial ?_ ?_ ?_ rfl trivial
    · intro x
      by_cases e : x = fd
      · exact .inr ⟨_, hcall, e.symm⟩
      · left; simp [registered, e]
    · intro x q hx
      simp only [reg] at hx
      split at hx
      · cases hx; exact ⟨rfl, hmode⟩
      · exact h.sock x q hx
    · intro x q hx he
      simp only [reg] at hx
      split at hx
      · rename_i e; cases hx
        subst e
        refine ⟨by rw [hset]; simp [lastEff, Call.fd], by rw [hset]; simp [fresh, Call.fd], .inl (by simp [registered])⟩
      · have hfd : q.fd ≠ fd := by
          intro e
          rcases h.at hcall hx he e with h' | ⟨call, h'⟩
          · have : registered tr true fd = none := (hti.tab true fd).trans ht
            rw [show callFd (.add true fd ev mode) = fd from rfl, this] at h'; cases h'
          · rw [hp] at h'; cases h'
        exact noteI_keep (h.note x q hx he) hpc (h4 _ hfd).1 (h4 _ hfd).2 (by simp [registered, hfd]) (fun call e => by rw [hp] at e; cases e)
  | @found _ t k fd ev mode p _ hp hpc ht hph =>
    have hpos := h.pos t
    rw [hp] at hpos
    obtain ⟨c, h1, _⟩ := call_of t (.modify k fd ev mode) (by rw [hp]; rfl)
    have hk : k = true := (ofICall_fd h1).2
    subst hk
    exact quiet t _ trivial hpc hph (by rw [hp]; rfl) hpos ((hti.tab true fd).trans ht) (by rw [hp]; nofun)
  | @gone _ t k fd _ hp hpc ht hph =>
    have hpos := h.pos t
    rw [hp] at hpos
    have hcall : (s.pc t).call? = some (.delete k fd) := by rw [hp]; rfl
    obtain ⟨c, h1, h2, h3, h4⟩ := eff t _ hcall
    have hk : k = true := (ofICall_fd h1).2
    subst hk
    have hm : marksI (.ret t (.delete true fd) .ok :: tr) = .vis (.ret t true) :: .eff t c false :: marksI tr := by
      simp only [marksI]; rw [if_neg (by rw [h3]; nofun)]; simp only [isDel, if_true, h2]; rfl
    rw [hm]
    refine h.call t .out hpc hph (.cons (.cons h.wf ⟨h3, hpos⟩) ⟨by show Api.busy (marksI tr) t ≠ none; rw [h3]; nofun, ?_, nofun⟩) ?_ ?_
      (by simp [Api.busy, Pc.call?]) (.inl rfl) trivial trivial (fun fd => .inl rfl) h.sock ?_ rfl trivial
    · intro _ b hb
      simp only [List.mem_singleton] at hb
      subst hb; simp [done]
    · intro u hu; simp only [Api.busy]; rw [if_neg (fun e => hu e.symm)]
    · intro u hu; simp only [done]; rw [if_neg (fun e => hu e.symm), if_neg (fun e => hu e.1.symm)]
    · intro x q hx he
      have hfd : q.fd ≠ fd := by
        intro e
        rcases h.at hcall hx he e with h' | ⟨call, h'⟩
        · have : registered tr true fd = none := (hti.tab true fd).trans ht
          rw [show callFd (.delete true fd) = fd from rfl, this] at h'; cases h'
        · rw [hp] at h'; cases h'
      exact noteI_keep (h.note x q hx he) hpc (h4 _ hfd).1 (h4 _ hfd).2 rfl (fun call e => by rw [hp] at e; cases e)
  | @remove _ t k fd p _ hp hpc ht hph =>
    have hpos := h.pos t
    rw [hp] at hpos
    have hcall : (s.pc t).call? = some (.delete k fd) := by rw [hp]; rfl
    obtain ⟨c, h1, h3⟩ := call_of t _ hcall
    have hk : k = true := (ofICall_fd h1).2
    subst hk
    refine h.call (o := .removed t true fd p) t _ hpc hph h.wf (fun _ _ => rfl) (fun _ _ => rfl) (h3.trans h1.symm) (.inr (by rw [hp]; rfl)) ⟨hpos, rfl⟩ ?_ ?_ h.sock ?_
      rfl trivial
    · simp [LookI, registered, callFd]
    · intro x
      by_cases e : x = fd
      · exact .inr ⟨_, hcall, e.symm⟩
      · left; simp [registered, e]
    · intro x q hx he
      by_cases hfd : q.fd = fd
      · rcases h.at hcall hx he hfd with h' | ⟨call, h'⟩
        · have : registered tr true fd = some p := (hti.tab true fd).trans ht
          rw [show callFd (.delete true fd) = fd from rfl, this] at h'; cases h'
          obtain ⟨a, b, _⟩ := h.note _ q hx he
          exact ⟨a, b, .inr ⟨t, .delete true fd, by rw [hpc, upd_self], hfd.symm⟩⟩
        · rw [hp] at h'; cases h'
      · exact noteI_keep (h.note x q hx he) hpc rfl rfl (by simp [registered, hfd]) (fun call e => by rw [hp] at e; cases e)
  | @change _ t k fd ev mode p _ q hp hpc hq hph =>
    have hpos := h.pos t
    have hlook := h.look t
    rw [hp] at hpos hlook
    have hcall : (s.pc t).call? = some (.modify k fd ev mode) := by rw [hp]; rfl
    obtain ⟨c, h1, h2, h3, h4⟩ := eff t _ hcall
    have hk : k = true := (ofICall_fd h1).2
    subst hk
    have hm : marksI (.changed t true fd p ev mode :: tr) = .eff t c false :: marksI tr := h2
    rw [hm]
    have hset : c = .set fd ev.key (Spec.oneshot mode) := by cases h1; rfl
    have hmode : once → Spec.oneshot mode = true := fun hon => mode_of t fd ev.key _ (by rw [h3, hset]) hon
    have hqc : q.call? = some (.modify true fd ev mode) := by rcases hq with rfl | rfl <;> rfl
    have hreg : registered (.changed t true fd p ev mode :: tr) = registered tr := rfl
    refine h.call t q hpc hph (.cons h.wf ⟨h3, hpos⟩) (fun _ _ => rfl) (fun u hu => done_other hu) (by rw [hqc]; exact h3.trans h1.symm)
      (.inr (by rw [hqc, hcall])) ?_ ?_ (fun _ => .inl rfl) ?_ ?_ rfl trivial
    · rcases hq with rfl | rfl
      · exact ⟨by simp [done], rfl⟩
      · exact ⟨by simp [done], rfl, fun _ => rfl⟩
    · rcases hq with rfl | rfl <;> trivial
    · intro x q' hx
      simp only [reg] at hx
      split at hx
      · obtain ⟨q0, h5, rfl⟩ := Option.map_eq_some_iff.mp hx
        exact ⟨(h.sock x q0 h5).1, hmode⟩
      · exact h.sock x q' hx
    · intro x q' hx he
      simp only [reg] at hx
      split at hx
      · rename_i e
        subst e
        obtain ⟨q0, h5, rfl⟩ := Option.map_eq_some_iff.mp hx
        obtain ⟨q1, h6, _, h7⟩ := (change_own hr hs).1 t true fd x ev mode rfl
        rw [h5] at h6; cases h6
        dsimp only [NoteI]
        rw [h7]
        refine ⟨by rw [hset]; simp [lastEff, Call.fd], by rw [hset]; simp [fresh, Call.fd], .inl ?_⟩
        exact hlook
      · rename_i e
        have hfd : q'.fd ≠ fd := by
          intro e'
          rcases h.at hcall hx he e' with h' | ⟨call, h'⟩
          · have h8 : registered tr true fd = some p := hlook
            rw [show callFd (.modify true fd ev mode) = fd from rfl, h8] at h'; cases h'; exact e rfl
          · rw [hp] at h'; cases h'
        exact noteI_keep (h.note x q' hx he) hpc (h4 _ hfd).1 (h4 _ hfd).2 rfl (fun call e => by rw [hp] at e; cases e)
  | @delete _ t call p r _ hp hpc hph =>
    have hpos := h.pos t
    have hlook := h.look t
    rw [hp] at hpos hlook
    have hcall : (s.pc t).call? = some call := by rw [hp]; rfl
    obtain ⟨c, h1, h2, h3, h4⟩ := eff t _ hcall
    have hm : marksI (.deleted t (callSock call) (callFd call) p r :: tr) = .vis (.ret t (r == .ok)) :: .eff t c false :: marksI tr := by
      simp only [marksI]; rw [if_neg (by rw [h3]; nofun), h2]
    rw [hm]
    have hcd : ∀ fd k b, c ≠ .set fd k b := by
      cases call with
      | delete k fd => cases k <;> cases h1; nofun
      | _ => cases hpos.2
    refine h.call t .out hpc hph (.cons (.cons h.wf ⟨h3, hpos.1⟩) ⟨by show Api.busy (marksI tr) t ≠ none; rw [h3]; nofun, ?_, ?_⟩) ?_ ?_
      (by simp [Api.busy, Pc.call?]) (.inl rfl) trivial trivial (fun fd => .inl rfl) ?_ ?_ rfl trivial
    · intro _ b hb
      simp only [List.mem_singleton] at hb
      subst hb; simp [done]
    · intro _ _ fd k b hb
      have hb : Api.busy (marksI tr) t = some (.set fd k b) := hb
      rw [h3] at hb; cases hb; exact absurd rfl (hcd fd k b)
    · intro u hu; simp only [Api.busy]; rw [if_neg (fun e => hu e.symm)]
    · intro u hu; simp only [done]; rw [if_neg (fun e => hu e.symm), if_neg (fun e => hu e.1.symm)]
    · intro x q hx
      simp only [reg] at hx
      split at hx
      · obtain ⟨q0, h5, rfl⟩ := Option.map_eq_some_iff.mp hx
        exact h.sock x q0 h5
      · exact h.sock x q hx
    · intro x q hx he
      simp only [reg] at hx
      split at hx
      · obtain ⟨q0, h5, rfl⟩ := Option.map_eq_some_iff.mp hx
        cases he
      · rename_i e
        have hfd : q.fd ≠ callFd call := by
          intro e'
          rcases h.at hcall hx he e' with h' | ⟨call', h'⟩
          · have h8 : registered tr true (callFd call) = none := hlook
            rw [h8] at h'; cases h'
          · rw [hp] at h'; cases h'; exact e rfl
        exact noteI_keep (h.note x q hx he) hpc (h4 _ hfd).1 (h4 _ hfd).2 rfl (fun call' e' => by rw [hp] at e'; cases e'; exact absurd rfl e)
  | @work _ t call u u' _ _ hp hpc ho hph =>
    have hpos := h.pos t
    rw [hp] at hpos
    exact quiet t _ ho hpc hph (by rw [hp]; rfl) hpos trivial (by rw [hp]; nofun)
  | @worked t call u r _ _ fault c hp hpc ho hu hph =>
    have hpos := h.pos t
    rw [hp] at hpos
    refine quiet t _ ho hpc hph (by rw [hp]; rfl) ⟨hpos.1, hpos.2, ?_⟩ trivial (by rw [hp]; nofun)
    intro hstr
    have hcalm : Calm fault u := by
      cases fault with
      | none => exact calm_none
      | some e => exact .inr (hst hstr call u hp)
    cases r with
    | ok => rfl
    | err e => exact absurd (ustep_accepts hcalm (fun x hx => reach_holder hr x (.inr (.inl ⟨t, by rw [hp]; exact hx⟩))) hu) id
  | @ret _ t call r _ hp hpc hph =>
    have hpos := h.pos t
    rw [hp] at hpos
    exact returns t call r rfl (by rw [hp]; rfl) hpc hph hpos.2.1 (fun _ => hpos.1) (fun hstr hne => absurd (hpos.2.2 hstr) hne) (by rw [hp]; nofun)

theorem oneAtATime_tail {o : IObs} {tr : List IObs} (h : OneAtATime (ofIObs (o :: tr))) : OneAtATime (ofIObs tr) := by
  intro later t call earlier he
  rcases view_consI o tr with h1 | ⟨x, h1⟩ <;> rw [h1] at h
  · exact h later t call earlier he
  · exact h (x :: later) t call earlier (by rw [he]; rfl)

theorem allOneshotI_tail {o : IObs} {tr : List IObs} (h : AllOneshot (ofIObs (o :: tr))) : AllOneshot (ofIObs tr) := by
  intro t fd k b hm
  refine h t fd k b ?_
  rcases view_consI o tr with he | ⟨x, he⟩ <;> rw [he]
  · exact hm
  · exact List.mem_cons_of_mem _ hm

theorem reach_iinv {n : Nat} {P} {strict once : Prop} {s : S} {tr : List IObs} (h : Reach n P s tr) (hst : strict → ∀ s a, P s a → Starts s a)
    (hport : IPortable tr) (hone : OneAtATime (ofIObs tr)) (hall : once → AllOneshot (ofIObs tr)) : IInv strict once s tr (marksI tr) := by
  induction h with
  | init =>
    refine ⟨.nil, fun _ => rfl, nofun, nofun, fun _ => trivial, fun _ => trivial, nofun, nofun, ?_⟩
    intro hne; exact absurd rfl hne
  | @step s tr a s' o hr hp hs ih =>
    exact next_iinv hr hp hs (fun hstr => hst hstr s a hp) hport hone hall
      (ih ⟨fun t call hm => hport.1 t call (List.mem_cons_of_mem _ hm), fun p ev hm => hport.2 p ev (List.mem_cons_of_mem _ hm)⟩
        (oneAtATime_tail hone) (fun hon => allOneshotI_tail (hall hon)))

end Polling.Api
