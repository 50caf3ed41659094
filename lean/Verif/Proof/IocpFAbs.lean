import Verif.Model.IocpF
import Verif.Proof.IocpStop
import Verif.Proof.IocpSync
import Verif.Proof.IocpCov
import Verif.Proof.IocpClose

/- The state of `IocpM` that a state of the fine-grained machine stands for: critical sections that took effect are completed,
those that did not are undone. -/

namespace Polling.IocpF
open Iocp IocpSpec IocpM

def isDone : Op → Bool
  | .done _ => true
  | _ => false

/-- The completion entry that was converted but not yet processed still counts as not converted. -/
def baseS (tk : Bool) (s : Sock) : Sock := if tk && isDone s.op then { s with inUse := true } else s

/-- What a section wrote before it takes effect is undone. -/
def undo (pos : Pos) (s : Sock) : Sock :=
  match pos with
  | .info _ => { s with inUse := false }
  | .iosb _ => { s with inUse := false }
  | .ioctl _ => { s with inUse := false }
  | .delStatus => { s with waitingOnDelete := false }
  | .pending del => if del then { s with waitingOnDelete := false } else s
  | .cancelIo del => if del then { s with waitingOnDelete := false } else s
  | .feedWod _ old => { s with status := old }
  | .feedIosb _ old => { s with status := old }
  | .feedInfo _ old => { s with status := old }
  | .feedInterest _ old => { s with status := old }
  | _ => s

/-- What a section that took effect is going to end with, and the packet afterwards. -/
def finishS (pos : Pos) (s : Sock) : Option (Out × Sock) :=
  match pos with
  | .setInterest ev mode => some (.set (setEventsSock s ev mode).1, (setEventsSock s ev mode).2)
  | .setMode mode => some (.set (setEventsSock s s.interest mode).1, (setEventsSock s s.interest mode).2)
  | .setError => some (.set (setEventsSock s s.interest s.mode).1, (setEventsSock s s.interest s.mode).2)
  | .setStatus => some (.set (match s.status with | .polling flags => decide (s.mask ≠ flags) | _ => true), s)
  | .setFlags flags => some (.set (decide (s.mask ≠ flags)), s)
  | .polling mask => some (.upd .ok, { s with status := .polling mask })
  | .cancelled del => some (cancelOut del .ok, { s with status := .cancelled })
  | .feedMode ev =>
    some (.fed (some ev), if s.mode = .oneshot then { s with interest := Event.none s.interest.key, interestError := false } else s)
  | .feedClear ev => some (.fed (some ev), { s with interest := Event.none s.interest.key, interestError := false })
  | .feedError ev => some (.fed (some ev), { s with interestError := false })
  | .closing => some (.localClose, s)
  | .fin out => some (out, s)
  | _ => none

def finishW (pos : Pos) (w : Wtb) : Option (Out × Wtb) :=
  match pos with
  | .wsetInterest ev mode => some (.set (decide (w.status = .idle)), { w with interest := ev, mode })
  | .wsetMode mode => some (.set (decide (w.status = .idle)), { w with mode })
  | .wsetStatus => some (.set (decide (w.status = .idle)), w)
  | .waiting => some (.upd .ok, { w with status := .waiting })
  | .wfeedMode ev =>
    some (.fed (some ev), if w.mode = .oneshot then { w with interest := Event.none w.interest.key } else w)
  | .wfeedClear ev => some (.fed (some ev), { w with interest := Event.none w.interest.key })
  | .wcancelled => some (.del .ok, { w with status := .cancelled })
  | .cidle => some (.posting, { w with status := .idle })
  | .fin out => some (out, w)
  | _ => none

/-- Completed if it took effect, undone otherwise. -/
def absS (pos : Pos) (s : Sock) : Sock := match finishS pos s with | some r => r.2 | none => undo pos s
def absW (pos : Pos) (w : Wtb) : Wtb := match finishW pos w with | some r => r.2 | none => w

def absPkt (tk : Bool) : Option (Who × Pos) → Pkt → Pkt
  | none, .socket s => .socket (baseS tk s)
  | some (_, pos), .socket s => .socket (absS pos (baseS tk s))
  | some (_, pos), .waitable w => .waitable (absW pos w)
  | _, x => x

/-- What the section of `who` is going to end with, if it took effect. -/
def outOf (who : Who) : Option (Who × Pos) → Pkt → Option Out
  | some (w, pos), .socket s => if w = who then (finishS pos s).map (·.1) else none
  | some (w, pos), .waitable x => if w = who then (finishW pos x).map (·.1) else none
  | _, _ => none

def absPc (t : Tid) (sec : PId → Option (Who × Pos)) (pk : PId → Pkt) (pc : Pc) : Pc :=
  match pcSite pc with
  | some (_, p) => match outOf (.thread t) (sec p) (pk p) with | some out => resumePc pc out | none => pc
  | none => pc

def absPhase (sec : PId → Option (Who × Pos)) (pk : PId → Pkt) (ph : Phase) : Phase :=
  match phaseSite ph with
  | some (_, p) => match outOf .waiter (sec p) (pk p) with | some out => resumePhase ph out | none => ph
  | none => ph

def absPk (taken : Option PId) (sec : PId → Option (Who × Pos)) (pk : PId → Pkt) : PId → Pkt :=
  fun p => absPkt (decide (taken = some p)) (sec p) (pk p)

/-- The state of the coarse machine. -/
def abs (f : F) : S :=
  { f.m with
    c := { f.m.c with pk := absPk f.taken f.sec f.m.c.pk }
    pc := fun t => absPc t f.sec f.m.c.pk (f.m.pc t)
    phase := absPhase f.sec f.m.c.pk f.m.phase }

/-- The error a step of a section can get. -/
def callFault (fault : Option Err) : Pos → Option Err
  | .ioctl _ | .cancelIo _ | .register => fault
  | _ => none

/-- The step of the coarse machine that `who` makes when its section takes effect. -/
def whoAct (who : Who) (fault : Option Err) : Act :=
  match who with
  | .thread t => .go t fault
  | .waiter => .wait fault
  | .callback p => .callback p

/-- The step of the coarse machine that a step of the fine-grained one stands for, if any. -/
def label (f : F) : FAct → Option Act
  | .plain a => some a
  | .lock who p => (lockObs f.m p who).map fun _ => whoAct who none
  | .access p fault =>
    match f.sec p with
    | some (who, pos) =>
      match stepPkt fault (f.m.c.pk p) (f.buf p) pos with
      | some (_, _, _, some _) => some (whoAct who (callFault fault pos))
      | _ => none
    | none => none
  | _ => none

/-- A section done at once, as in `IocpM`. -/
def atomic : Kind → Option Err → Pkt → Out × Pkt × Mark
  | .set ev mode, _, .socket s => (.set (setEventsSock s ev mode).1, .socket (setEventsSock s ev mode).2, .tau)
  | .set ev mode, _, .waitable w => (.set (decide (w.status = .idle)), .waitable { w with interest := ev, mode }, .tau)
  | .upd, fault, .socket s =>
    (.upd (updateSock fault s).1, .socket (updateSock fault s).2.1,
      match (updateSock fault s).2.2 with | some m => .polled m | none => .tau)
  | .upd, fault, .waitable w => (.upd (updateWtb fault w).1, .waitable (updateWtb fault w).2, .tau)
  | .del, fault, .socket s =>
    if s.waitingOnDelete then (.del .ok, .socket s, .ended .ok)
    else match s.status with
      | .polling _ =>
        (.del (cancel fault { s with waitingOnDelete := true }).1, .socket (cancel fault { s with waitingOnDelete := true }).2,
          .ended (cancel fault { s with waitingOnDelete := true }).1)
      | _ => (.del .ok, .socket { s with waitingOnDelete := true }, .ended .ok)
  | .del, _, .waitable w => (.del .ok, .waitable { w with status := .cancelled, registered := false }, .ended .ok)
  | .feed, _, .waitable w =>
    (.fed (some w.interest), .waitable (if w.mode = .oneshot then { w with interest := Event.none w.interest.key } else w),
      .deliver false w.handle w.interest)
  | .feed, _, .socket s =>
    match s.op with
    | .done r =>
      let s := { s with status := .idle, inUse := false, op := .none }
      if s.waitingOnDelete then (.noEvent, .socket s, .tau)
      else if isLocalClose r then (.localClose, .socket s, .tau)
      else (.fed (filterEvent s (rawEvent s.interest.key r)).2, .socket (filterEvent s (rawEvent s.interest.key r)).1,
        match (filterEvent s (rawEvent s.interest.key r)).2 with | some ev => .deliver true s.socket ev | none => .tau)
    | _ => (.noEvent, .socket s, .tau)
  | .cb, _, .waitable w => (.posting, .waitable { w with status := .idle, registered := false }, .tau)
  | _, _, x => (.noEvent, x, .tau)

theorem setPk_id (c : Core) (p : PId) : setPk c p (c.pk p) = c := by
  cases c
  simp only [setPk]
  congr 1
  funext q
  split
  · rename_i h; rw [h]
  · rfl

theorem filterEvent_socket (s ev) : (filterEvent s ev).1.socket = s.socket := (filterEvent_frame s ev).1

/-- An update as one step. -/
theorem update_atomic {fault c p} (he : (entry .upd (c.pk p)).isSome = true) :
    ∃ r m, update fault c p = (r, setPk c p (atomic .upd fault (c.pk p)).2.1, m) ∧ (atomic .upd fault (c.pk p)).1 = .upd r ∧
      ∀ s who q, updateObs q m = (atomic .upd fault (c.pk p)).2.2.obs s who q := by
  unfold update
  cases hp : c.pk p with
  | socket x =>
    refine ⟨(updateSock fault x).1, (updateSock fault x).2.2, rfl, rfl, fun s who q => ?_⟩
    simp only [atomic]
    generalize (updateSock fault x).2.2 = m
    cases m <;> rfl
  | waitable w => exact ⟨(updateWtb fault w).1, none, rfl, rfl, fun s who q => rfl⟩
  | free => rw [hp] at he; cases he
  | custom ev => rw [hp] at he; cases he
  | wakeup => rw [hp] at he; cases he

/-- A `set_events` as one step. -/
theorem set_atomic {fault ev mode c p} (he : (entry (.set ev mode) (c.pk p)).isSome = true) :
    ∃ b, setEvents c p ev mode = (b, setPk c p (atomic (.set ev mode) fault (c.pk p)).2.1) ∧
      (atomic (.set ev mode) fault (c.pk p)).1 = .set b := by
  unfold setEvents
  cases hp : c.pk p with
  | socket x => exact ⟨(setEventsSock x ev mode).1, rfl, rfl⟩
  | waitable w => exact ⟨decide (w.status = .idle), rfl, rfl⟩
  | free => rw [hp] at he; cases he
  | custom ev => rw [hp] at he; cases he
  | wakeup => rw [hp] at he; cases he

/-- What is observed of a section done at once. -/
def whoObs (s : S) (who : Who) (p : PId) (mark : Mark) : IObs :=
  match lockObs s p who with
  | some o => o
  | none => mark.obs s who p

/-- A section of a registration call, as one step of the coarse machine. -/
theorem coarse_thread {n s t k p fault} (ht : t < n) (hsite : pcSite (s.pc t) = some (k, p)) (he : (entry k (s.c.pk p)).isSome = true) :
    step n s (.go t fault) = some ({ s with
      c := setPk s.c p (atomic k fault (s.c.pk p)).2.1
      pc := upd s.pc t (resumePc (s.pc t) (atomic k fault (s.c.pk p)).1) },
      whoObs s (.thread t) p (atomic k fault (s.c.pk p)).2.2) := by
  have hn : ¬ t ≥ n := by omega
  simp only [step, if_neg hn, goCall]
  cases hpc : s.pc t with
  | set call q =>
    rw [hpc] at hsite
    cases call with
    | modify k' fd ev mode =>
      cases hsite
      obtain ⟨b, h1, h2⟩ := set_atomic (fault := fault) he
      simp only [whoObs, lockObs, hpc, h1, h2, resumePc]
    | add => cases hsite
    | delete => cases hsite
  | del call q =>
    rw [hpc] at hsite
    cases hsite
    simp only [whoObs, lockObs, hpc, beginDelete]
    cases hp : s.c.pk p with
    | socket x =>
      simp only [atomic]
      split
      · simp only [resumePc, Mark.obs, hpc]
        congr
        rw [← hp]; exact (setPk_id _ _).symm
      · split
        · rename_i h; simp only [h, resumePc, Mark.obs, hpc]
        · rename_i h
          cases hst : x.status with
          | polling m => exact absurd hst (h m)
          | idle => simp only [resumePc, Mark.obs, hpc]
          | cancelled => simp only [resumePc, Mark.obs, hpc]
    | waitable w => simp only [atomic, resumePc, Mark.obs, hpc]
    | free => rw [hp] at he; cases he
    | custom ev => rw [hp] at he; cases he
    | wakeup => rw [hp] at he; cases he
  | upd call u =>
    rw [hpc] at hsite
    cases u with
    | run q =>
      cases hsite
      obtain ⟨r, m, h1, h2, h3⟩ := update_atomic (fault := fault) he
      simp only [ustep, h1, whoObs, lockObs, hpc, h2, resumePc, resumeU, h3 s (.thread t)]
    | drain q' i q =>
      cases hsite
      obtain ⟨r, m, h1, h2, h3⟩ := update_atomic (fault := fault) he
      simp only [ustep, h1, whoObs, lockObs, hpc, h2, h3 s (.thread t)]
      cases r <;> simp only [resumePc, resumeU]
    | load q => cases hsite
    | push q => cases hsite
    | pop q i => cases hsite
  | out => rw [hpc] at hsite; cases hsite
  | prepare call => rw [hpc] at hsite; cases hsite
  | table call => rw [hpc] at hsite; cases hsite
  | ret call r => rw [hpc] at hsite; cases hsite
  | notify => rw [hpc] at hsite; cases hsite

/-- A section of the thread in `wait`, as one step of the coarse machine. -/
theorem coarse_waiter {n s k p fault} (hsite : phaseSite s.phase = some (k, p)) (he : (entry k (s.c.pk p)).isSome = true)
    (hd : k = .feed → ∀ x, s.c.pk p = .socket x → isDone x.op = true) :
    step n s (.wait fault) = some ({ s with
      c := setPk s.c p (atomic k fault (s.c.pk p)).2.1
      phase := resumePhase s.phase (atomic k fault (s.c.pk p)).1 },
      whoObs s .waiter p (atomic k fault (s.c.pk p)).2.2) := by
  simp only [step, goWait]
  cases hph : s.phase with
  | upd w q =>
    rw [hph] at hsite
    cases hsite
    obtain ⟨r, m, h1, h2, h3⟩ := update_atomic (fault := fault) he
    simp only [h1, whoObs, lockObs, h2, h3 s .waiter]
    cases r <;> simp only [resumePhase, h3 s .waiter]
  | feed w batch =>
    rw [hph] at hsite
    cases batch with
    | nil => cases hsite
    | cons q batch =>
      cases hsite
      simp only [feed]
      cases hp : s.c.pk p with
      | socket x =>
        have := hd rfl x hp
        cases hop : x.op with
        | done r =>
          by_cases hw : x.waitingOnDelete = true
          · simp only [hop, atomic, if_pos hw, resumePhase, whoObs, lockObs, Mark.obs]
          · by_cases hl : isLocalClose r = true
            · simp only [hop, atomic, if_neg hw, if_pos hl, resumePhase, whoObs, lockObs, Mark.obs]
            · simp only [hop, atomic, if_neg hw, if_neg hl, resumePhase, whoObs, lockObs, filterEvent_socket]
              generalize filterEvent _ _ = fe
              obtain ⟨y, ev⟩ := fe
              cases ev <;> simp only [Mark.obs]
        | none => rw [hop] at this; cases this
        | inFlight m b => rw [hop] at this; cases this
      | waitable x => simp only [atomic, resumePhase, whoObs, lockObs, Mark.obs]
      | free => rw [hp] at he; cases he
      | custom ev => rw [hp] at he; cases he
      | wakeup => rw [hp] at he; cases he
  | feedUpd w batch u ev =>
    rw [hph] at hsite
    cases u with
    | run q =>
      cases hsite
      obtain ⟨r, m, h1, h2, h3⟩ := update_atomic (fault := fault) he
      simp only [ustep, coherent, h1, whoObs, lockObs, h2, h3 s .waiter]
      cases r <;> simp only [resumePhase, resumeU, h3 s .waiter]
    | drain q' i q =>
      cases hsite
      obtain ⟨r, m, h1, h2, h3⟩ := update_atomic (fault := fault) he
      simp only [ustep, coherent, h1, whoObs, lockObs, h2, h3 s .waiter]
      cases r <;> simp only [resumePhase, resumeU, h3 s .waiter]
    | load q => cases hsite
    | push q => cases hsite
    | pop q i => cases hsite
  | idle => rw [hph] at hsite; cases hsite
  | top _ _ => rw [hph] at hsite; cases hsite
  | start _ => rw [hph] at hsite; cases hsite
  | pop _ => rw [hph] at hsite; cases hsite
  | port _ => rw [hph] at hsite; cases hsite
  | unpoll _ _ => rw [hph] at hsite; cases hsite
  | fail _ _ => rw [hph] at hsite; cases hsite
  | drain _ _ _ => rw [hph] at hsite; cases hsite
  | fin _ => rw [hph] at hsite; cases hsite
  | stuck => rw [hph] at hsite; cases hsite

/-- The section of a callback, as one step of the coarse machine. -/
theorem coarse_callback {n s p} (hc : p ∈ s.cb) (he : (entry .cb (s.c.pk p)).isSome = true) :
    step n s (.callback p) = some ({ s with
      c := setPk s.c p (atomic .cb none (s.c.pk p)).2.1, cb := s.cb.erase p, cbPost := p :: s.cbPost }, .tau) := by
  simp only [step]
  cases hp : s.c.pk p with
  | waitable w => simp only [if_pos hc, atomic]
  | socket x => rw [hp] at he; cases he
  | free => rw [hp] at he; cases he
  | custom ev => rw [hp] at he; cases he
  | wakeup => rw [hp] at he; cases he

end Polling.IocpF
