import Verif.Proof.IocpFAbs

/- The critical sections of a packet: what holds at every position, and what one access does to the state the packet stands for. -/

namespace Polling.IocpF
open Iocp IocpSpec IocpM

/-- The section took effect. -/
def Pos.post : Pos → Bool
  | .setInterest _ _ | .setMode _ | .setError | .setStatus | .setFlags _ | .polling _ | .cancelled _ | .feedMode _ | .feedClear _
  | .feedError _ | .closing | .fin _ | .wsetInterest _ _ | .wsetMode _ | .wsetStatus | .waiting | .wfeedMode _ | .wfeedClear _
  | .wcancelled | .cidle => true
  | _ => false

/-- The section a position before the effect belongs to. -/
def preKind : Pos → Kind
  | .delRead | .delWrite | .delStatus | .pending true | .cancelIo true | .wunregister => .del
  | .key | .idle _ | .feedWod _ _ | .feedIosb _ _ | .feedInfo _ _ | .feedInterest _ _ | .wfeed => .feed
  | .cunregister => .cb
  | _ => .upd

/-- The buffers hold this result. -/
def Matches (b : Buf) : PollRes → Prop
  | .cancelled => b.status = .cancelled
  | .error => b.status = .error
  | .ok count events => b.status = .success ∧ b.count = count ∧ b.events = events

/-- The buffers and the operation. -/
def BufOk (written : Option PollRes) (b : Buf) : Op → Prop
  | .none => written = none
  | .inFlight mask cancelling =>
    match written with
    | none => b.status = .pending
    | some r => possible mask cancelling r = true ∧ Matches b r
  | .done r => written = none ∧ Matches b r

/-- The completion entry of the packet was converted, and it is being processed. -/
def Feeding (tk : Bool) (s : Sock) : Prop := tk = true ∧ isDone s.op = true ∧ s.inUse = false

/-- What the owner of the mutex knows at a position: sockets. -/
def SockOk (tk : Bool) (s : Sock) (b : Buf) : Pos → Prop
  | .setInterest _ _ | .setMode _ | .setError | .setStatus | .setFlags _ | .polling _ | .cancelled _ | .fin _ | .wod | .delRead => True
  | .closing | .feedMode _ | .feedClear _ | .feedError _ => True
  | .status => s.waitingOnDelete = false
  | .flags flags => s.waitingOnDelete = false ∧ s.status = .polling flags
  | .mask => s.waitingOnDelete = false ∧ s.status = .idle
  | .tryLock mask => s.waitingOnDelete = false ∧ s.status = .idle ∧ mask = s.mask
  | .info mask | .iosb mask =>
    s.waitingOnDelete = false ∧ s.status = .idle ∧ mask = s.mask ∧ s.inUse = true ∧ s.op = .none
  | .ioctl mask =>
    s.waitingOnDelete = false ∧ s.status = .idle ∧ mask = s.mask ∧ s.inUse = true ∧ s.op = .none ∧ b.status = .pending
  | .pending false | .cancelIo false => s.waitingOnDelete = false ∧ ∃ flags, s.status = .polling flags ∧ s.mask ≠ flags
  | .pending true | .cancelIo true => s.waitingOnDelete = true ∧ ∃ flags, s.status = .polling flags
  | .delWrite => s.waitingOnDelete = false
  | .delStatus => s.waitingOnDelete = true
  | .key => Feeding tk s
  | .idle key => Feeding tk s ∧ key = s.interest.key
  | .feedWod key _ => Feeding tk s ∧ key = s.interest.key ∧ s.status = .idle
  | .feedIosb key _ => Feeding tk s ∧ key = s.interest.key ∧ s.status = .idle ∧ s.waitingOnDelete = false
  | .feedInfo key _ => Feeding tk s ∧ key = s.interest.key ∧ s.status = .idle ∧ s.waitingOnDelete = false ∧
      s.op = .done (.ok b.count b.events)
  | .feedInterest ev _ => Feeding tk s ∧ s.status = .idle ∧ s.waitingOnDelete = false ∧
      ∃ r, s.op = .done r ∧ isLocalClose r = false ∧ ev = rawEvent s.interest.key r
  | _ => False

/-- What the owner of the mutex knows at a position: waitables. -/
def WtbOk (w : Wtb) : Pos → Prop
  | .wsetInterest _ _ | .wsetMode _ | .wsetStatus | .waiting | .wfeed | .wfeedMode _ | .wfeedClear _ | .wunregister | .wcancelled
  | .cunregister | .cidle | .fin _ | .winterest => True
  | .wstatus => (!w.interest.readable && !w.interest.writable) = false
  | .register => (!w.interest.readable && !w.interest.writable) = false ∧ w.status = .idle
  | _ => False

theorem finishS_post {tk s b pos} (h : SockOk tk s b pos) (s' : Sock) : (finishS pos s').isSome = pos.post := by
  cases pos <;> first | rfl | exact h.elim

theorem finishW_post {w pos} (h : WtbOk w pos) (w' : Wtb) : (finishW pos w').isSome = pos.post := by
  cases pos <;> first | rfl | exact h.elim

theorem absS_op (pos : Pos) (s : Sock) (x : Op) : absS pos { s with op := x } = { absS pos s with op := x } := by
  cases pos with
  | pending d => cases d <;> rfl
  | cancelIo d => cases d <;> rfl
  | feedMode ev => unfold absS finishS; dsimp only; split <;> rfl
  | _ => rfl

theorem absS_inUse (pos : Pos) (s : Sock) : absS pos { s with inUse := false } = { absS pos s with inUse := false } := by
  cases pos with
  | pending d => cases d <;> rfl
  | cancelIo d => cases d <;> rfl
  | feedMode ev => unfold absS finishS; dsimp only; split <;> rfl
  | _ => rfl

theorem absS_keep (pos : Pos) (s : Sock) : (absS pos s).op = s.op := by
  cases pos with
  | pending d => cases d <;> rfl
  | cancelIo d => cases d <;> rfl
  | feedMode ev => unfold absS finishS; dsimp only; split <;> rfl
  | _ => rfl

theorem absW_registered (pos : Pos) (w : Wtb) (x : Bool) : absW pos { w with registered := x } = { absW pos w with registered := x } := by
  cases pos with
  | wfeedMode ev => unfold absW finishW; dsimp only; split <;> rfl
  | _ => rfl

theorem absW_keep (pos : Pos) (w : Wtb) : (absW pos w).registered = w.registered := by
  cases pos with
  | wfeedMode ev => unfold absW finishW; dsimp only; split <;> rfl
  | _ => rfl

/-- What a section ends with does not depend on what others can change. -/
theorem finishS_out (pos : Pos) (s : Sock) (u : Bool) (x : Op) :
    (finishS pos { s with inUse := u, op := x }).map (·.1) = (finishS pos s).map (·.1) := by
  cases pos <;> rfl

theorem finishW_out (pos : Pos) (w : Wtb) (x : Bool) : (finishW pos { w with registered := x }).map (·.1) = (finishW pos w).map (·.1) := by
  cases pos <;> rfl

theorem baseS_op (tk : Bool) (s : Sock) : (baseS tk s).op = s.op := by
  unfold baseS; split <;> rfl

theorem finishS_base (pos : Pos) (tk : Bool) (s : Sock) : (finishS pos (baseS tk s)).map (·.1) = (finishS pos s).map (·.1) := by
  unfold baseS
  split
  · exact finishS_out pos s true s.op
  · rfl

/-- After a section took effect, its accesses do not change what it will have done. -/
theorem sock_post {fault s b pos pos' s' b' mk} (hp : pos.post = true) (h : stepSock fault s b pos = some (pos', s', b', mk)) :
    mk = none ∧ b' = b ∧ pos'.post = true ∧ finishS pos' s' = finishS pos s ∧ s'.op = s.op ∧ s'.inUse = s.inUse ∧
      ∀ tk, SockOk tk s' b' pos' := by
  cases pos <;> first | (cases hp; done) | skip
  all_goals try (cases h; done)
  case setInterest ev mode => unfold stepSock at h; dsimp only at h; cases h; exact ⟨rfl, rfl, rfl, rfl, rfl, rfl, fun _ => trivial⟩
  case setMode mode => unfold stepSock at h; dsimp only at h; cases h; exact ⟨rfl, rfl, rfl, rfl, rfl, rfl, fun _ => trivial⟩
  case setError => unfold stepSock at h; dsimp only at h; cases h; exact ⟨rfl, rfl, rfl, rfl, rfl, rfl, fun _ => trivial⟩
  case setStatus =>
    unfold stepSock at h; dsimp only at h; cases h
    refine ⟨rfl, rfl, ?_, ?_, rfl, rfl, fun tk => ?_⟩
    · cases s.status <;> rfl
    · unfold finishS; dsimp only; cases s.status <;> rfl
    · cases s.status <;> trivial
  case setFlags flags => unfold stepSock at h; dsimp only at h; cases h; exact ⟨rfl, rfl, rfl, rfl, rfl, rfl, fun _ => trivial⟩
  case polling mask => unfold stepSock at h; dsimp only at h; cases h; exact ⟨rfl, rfl, rfl, rfl, rfl, rfl, fun _ => trivial⟩
  case cancelled del => unfold stepSock at h; dsimp only at h; cases h; exact ⟨rfl, rfl, rfl, rfl, rfl, rfl, fun _ => trivial⟩
  case feedMode ev =>
    unfold stepSock at h; dsimp only at h
    by_cases hm : s.mode = .oneshot
    · rw [if_pos hm] at h; cases h
      refine ⟨rfl, rfl, rfl, ?_, rfl, rfl, fun _ => trivial⟩
      unfold finishS; dsimp only; rw [if_pos hm]
    · rw [if_neg hm] at h; cases h
      refine ⟨rfl, rfl, rfl, ?_, rfl, rfl, fun _ => trivial⟩
      unfold finishS; dsimp only; rw [if_neg hm]
  case feedClear ev => unfold stepSock at h; dsimp only at h; cases h; exact ⟨rfl, rfl, rfl, rfl, rfl, rfl, fun _ => trivial⟩
  case feedError ev => unfold stepSock at h; dsimp only at h; cases h; exact ⟨rfl, rfl, rfl, rfl, rfl, rfl, fun _ => trivial⟩

theorem wtb_post {fault w pos pos' w' mk} (hp : pos.post = true) (h : stepWtb fault w pos = some (pos', w', mk)) :
    mk = none ∧ pos'.post = true ∧ finishW pos' w' = finishW pos w ∧ w'.registered = w.registered ∧ WtbOk w' pos' := by
  cases pos <;> first | (cases hp; done) | skip
  all_goals try (cases h; done)
  case wfeedMode ev =>
    unfold stepWtb at h; dsimp only at h
    by_cases hm : w.mode = .oneshot
    · rw [if_pos hm] at h; cases h
      refine ⟨rfl, rfl, ?_, rfl, trivial⟩
      unfold finishW; dsimp only; rw [if_pos hm]
    · rw [if_neg hm] at h; cases h
      refine ⟨rfl, rfl, ?_, rfl, trivial⟩
      unfold finishW; dsimp only; rw [if_neg hm]
  all_goals (unfold stepWtb at h; dsimp only at h; cases h; exact ⟨rfl, rfl, rfl, rfl, trivial⟩)

/-- An access before a section takes effect: nothing changes, or it takes effect. -/
def PreStep (tk : Bool) (fault : Option Err) (pos : Pos) (s : Sock) (pos' : Pos) (s' : Sock) (mk : Option Mark) : Prop :=
  (mk = none ∧ pos'.post = false ∧ preKind pos' = preKind pos ∧ undo pos' (baseS tk s') = undo pos (baseS tk s)) ∨
  ∃ mark out s'', mk = some mark ∧ pos'.post = true ∧ finishS pos' (baseS tk s') = some (out, s'') ∧
    atomic (preKind pos) (callFault fault pos) (.socket (undo pos (baseS tk s))) = (out, .socket s'', mark)

theorem baseS_false (s) : baseS false s = s := rfl

theorem baseS_none {tk s} (h : s.op = .none) : baseS tk s = s := by
  unfold baseS; rw [h]; cases tk <;> rfl

theorem upd_deleted {fault s} (h : s.waitingOnDelete = true) : atomic .upd fault (.socket s) = (.upd .ok, .socket s, .tau) := by
  have : updateSock fault s = (.ok, s, none) := by unfold updateSock; exact if_pos h
  simp only [atomic, this]

theorem upd_cancelled {fault s} (h1 : s.waitingOnDelete = false) (h2 : s.status = .cancelled) :
    atomic .upd fault (.socket s) = (.upd .ok, .socket s, .tau) := by
  have : updateSock fault s = (.ok, s, none) := by unfold updateSock; simp only [h1, h2]; rfl
  simp only [atomic, this]

theorem upd_same {fault s flags} (h1 : s.waitingOnDelete = false) (h2 : s.status = .polling flags) (h3 : ¬ s.mask ≠ flags) :
    atomic .upd fault (.socket s) = (.upd .ok, .socket s, .tau) := by
  have : updateSock fault s = (.ok, s, none) := by unfold updateSock; simp only [h1, h2, if_neg h3]; rfl
  simp only [atomic, this]

theorem upd_cancel {fault s flags} (h1 : s.waitingOnDelete = false) (h2 : s.status = .polling flags) (h3 : s.mask ≠ flags) :
    atomic .upd fault (.socket s) = (.upd (cancel fault s).1, .socket (cancel fault s).2, .tau) := by
  have : updateSock fault s = ((cancel fault s).1, (cancel fault s).2, none) := by
    unfold updateSock; simp only [h1, h2, if_pos h3]; rfl
  simp only [atomic, this]

theorem upd_busy {fault s} (h1 : s.waitingOnDelete = false) (h2 : s.status = .idle) (h3 : s.inUse = true) :
    atomic .upd fault (.socket s) = (.upd .ok, .socket { s with status := .polling s.mask }, .tau) := by
  have : updateSock fault s = (.ok, { s with status := .polling s.mask }, none) := by
    unfold updateSock; simp only [h1, h2, startPoll, h3]; rfl
  simp only [atomic, this]

theorem upd_start {s} (h1 : s.waitingOnDelete = false) (h2 : s.status = .idle) (h3 : s.inUse = false) :
    atomic .upd none (.socket s) =
      (.upd .ok, .socket { s with inUse := true, status := .polling s.mask, op := .inFlight s.mask false }, .polled s.mask) := by
  have : updateSock none s = (.ok, { s with inUse := true, status := .polling s.mask, op := .inFlight s.mask false }, some s.mask) := by
    unfold updateSock; simp only [h1, h2, startPoll, h3]; rfl
  simp only [atomic, this]

theorem upd_tolerated {s e} (h1 : s.waitingOnDelete = false) (h2 : s.status = .idle) (h3 : s.inUse = false) (h4 : tolerated e = true) :
    atomic .upd (some e) (.socket s) = (.upd .ok, .socket { s with inUse := true, status := .polling s.mask }, .tau) := by
  have : updateSock (some e) s = (.ok, { s with inUse := true, status := .polling s.mask }, none) := by
    unfold updateSock; simp only [h1, h2, startPoll, h3, h4]; rfl
  simp only [atomic, this]

theorem upd_refused {s e} (h1 : s.waitingOnDelete = false) (h2 : s.status = .idle) (h3 : s.inUse = false) (h4 : ¬ tolerated e = true) :
    atomic .upd (some e) (.socket s) = (.upd (.err e), .socket { s with inUse := true }, .tau) := by
  have : updateSock (some e) s = (.err e, { s with inUse := true }, none) := by
    unfold updateSock; simp only [h1, h2, startPoll, h3, if_neg h4]; rfl
  simp only [atomic, this]

theorem del_deleted {fault s} (h : s.waitingOnDelete = true) : atomic .del fault (.socket s) = (.del .ok, .socket s, .ended .ok) := by
  simp only [atomic, if_pos h]

theorem del_idle {fault s} (h1 : s.waitingOnDelete = false) (h2 : ∀ flags, s.status ≠ .polling flags) :
    atomic .del fault (.socket s) = (.del .ok, .socket { s with waitingOnDelete := true }, .ended .ok) := by
  unfold atomic
  simp only [h1]
  cases hs : s.status with
  | polling flags => exact absurd hs (h2 flags)
  | idle => rfl
  | cancelled => rfl

theorem del_cancel {fault s flags} (h1 : s.waitingOnDelete = false) (h2 : s.status = .polling flags) :
    atomic .del fault (.socket s) = (.del (cancel fault { s with waitingOnDelete := true }).1,
      .socket (cancel fault { s with waitingOnDelete := true }).2, .ended (cancel fault { s with waitingOnDelete := true }).1) := by
  unfold atomic
  simp only [h1, h2]
  rfl

theorem feed_deleted {fault s r} (h : s.op = .done r) (h1 : s.waitingOnDelete = true) :
    atomic .feed fault (.socket s) = (.noEvent, .socket { s with status := .idle, inUse := false, op := .none }, .tau) := by
  simp only [atomic, h, if_pos h1]

theorem feed_close {fault s r} (h : s.op = .done r) (h1 : s.waitingOnDelete = false) (h2 : isLocalClose r = true) :
    atomic .feed fault (.socket s) = (.localClose, .socket { s with status := .idle, inUse := false, op := .none }, .tau) := by
  simp only [atomic, h, h1, h2]; rfl

theorem feed_some {fault s r ev} (h : s.op = .done r) (h1 : s.waitingOnDelete = false) (h2 : isLocalClose r = false)
    (h3 : ev = narrowed s (rawEvent s.interest.key r)) (h4 : wanted s ev = true) :
    atomic .feed fault (.socket s) = (.fed (some ev),
      .socket (if s.mode = .oneshot then
          { s with status := .idle, inUse := false, op := .none, interest := Event.none s.interest.key, interestError := false }
        else { s with status := .idle, inUse := false, op := .none }), .deliver true s.socket ev) := by
  have hf : filterEvent { s with status := .idle, inUse := false, op := .none } (rawEvent s.interest.key r) =
      (if s.mode = .oneshot then
          { s with status := .idle, inUse := false, op := .none, interest := Event.none s.interest.key, interestError := false }
        else { s with status := .idle, inUse := false, op := .none }, some ev) := by
    unfold filterEvent
    dsimp only
    rw [if_pos (show _ = true by rw [h3] at h4; exact h4), h3]
    rfl
  have h1' : ¬ s.waitingOnDelete = true := by rw [h1]; decide
  have h2' : ¬ isLocalClose r = true := by rw [h2]; decide
  simp only [atomic, h, if_neg h1', if_neg h2', hf]

theorem feed_none {fault s r ev} (h : s.op = .done r) (h1 : s.waitingOnDelete = false) (h2 : isLocalClose r = false)
    (h3 : ev = narrowed s (rawEvent s.interest.key r)) (h4 : ¬ wanted s ev = true) :
    atomic .feed fault (.socket s) = (.fed none, .socket { s with status := .idle, inUse := false, op := .none }, .tau) := by
  have hf : filterEvent { s with status := .idle, inUse := false, op := .none } (rawEvent s.interest.key r) =
      ({ s with status := .idle, inUse := false, op := .none }, none) := by
    unfold filterEvent
    dsimp only
    rw [if_neg (show ¬ _ = true by rw [h3] at h4; exact h4)]
  have h1' : ¬ s.waitingOnDelete = true := by rw [h1]; decide
  have h2' : ¬ isLocalClose r = true := by rw [h2]; decide
  simp only [atomic, h, if_neg h1', if_neg h2', hf]

theorem baseS_feeding {tk s} (h : Feeding tk s) : baseS tk s = { s with inUse := true } := by
  unfold baseS; rw [h.1, h.2.1]; rfl

theorem baseS_wod (tk s) : (baseS tk s).waitingOnDelete = s.waitingOnDelete := by unfold baseS; split <;> rfl
theorem baseS_status (tk s) : (baseS tk s).status = s.status := by unfold baseS; split <;> rfl
theorem baseS_mask (tk s) : (baseS tk s).mask = s.mask := by unfold baseS; split <;> rfl

theorem wod_eta {x : Sock} (h : x.waitingOnDelete = true) : { x with waitingOnDelete := true } = x := by
  cases x; cases h; rfl

theorem opCancel_done (o : Op) : isDone o.cancel = isDone o := by cases o <;> rfl

theorem baseS_cancel (tk s) : baseS tk { s with op := s.op.cancel } = { baseS tk s with op := s.op.cancel } := by
  unfold baseS
  dsimp only
  rw [opCancel_done]
  split <;> rfl

theorem bufOk_cancel {written b o} (h : BufOk written b o) : BufOk written b o.cancel := by
  cases o with
  | none => exact h
  | done r => exact h
  | inFlight mask c =>
    cases written with
    | none => exact h
    | some r =>
      refine ⟨?_, h.2⟩
      have := h.1
      cases r with
      | cancelled => rfl
      | error => rfl
      | ok n e => exact this

theorem baseS_notDone {tk s} (h : isDone s.op = false) : baseS tk s = s := by
  unfold baseS; rw [h]; cases tk <;> rfl

theorem sock_pre {tk fault s b pos pos' s' b' mk written} (hp : pos.post = false) (hok : SockOk tk s b pos) (hb : BufOk written b s.op)
    (hop : OpOk (.socket (undo pos (baseS tk s)))) (h : stepSock fault s b pos = some (pos', s', b', mk)) :
    PreStep tk fault pos s pos' s' mk ∧ SockOk tk s' b' pos' ∧ BufOk written b' s'.op := by
  cases pos <;> first | (cases hp; done) | skip
  all_goals try (exact hok.elim)
  case wod =>
    unfold stepSock at h; dsimp only at h
    by_cases hw : s.waitingOnDelete = true
    · rw [if_pos hw] at h; cases h
      exact ⟨.inr ⟨.tau, .upd .ok, baseS tk s, rfl, rfl, rfl, upd_deleted (by rw [← baseS_wod tk] at hw; exact hw)⟩, trivial, hb⟩
    · rw [if_neg hw] at h; cases h
      have hw' : s.waitingOnDelete = false := by simpa using hw
      exact ⟨.inl ⟨rfl, rfl, rfl, rfl⟩, hw', hb⟩
  case status =>
    unfold stepSock at h; dsimp only at h
    have hw : s.waitingOnDelete = false := hok
    cases hst : s.status with
    | polling flags =>
      rw [hst] at h; cases h
      exact ⟨.inl ⟨rfl, rfl, rfl, rfl⟩, ⟨hw, hst⟩, hb⟩
    | cancelled =>
      rw [hst] at h; cases h
      exact ⟨.inr ⟨.tau, .upd .ok, baseS tk s, rfl, rfl, rfl, upd_cancelled (by rw [← baseS_wod tk] at hw; exact hw)
        (by rw [← baseS_status tk] at hst; exact hst)⟩, trivial, hb⟩
    | idle =>
      rw [hst] at h; cases h
      exact ⟨.inl ⟨rfl, rfl, rfl, rfl⟩, ⟨hw, hst⟩, hb⟩
  case flags flags =>
    unfold stepSock at h; dsimp only at h
    obtain ⟨hw, hst⟩ := hok
    by_cases hm : s.mask ≠ flags
    · rw [if_pos hm] at h; cases h
      exact ⟨.inl ⟨rfl, rfl, rfl, rfl⟩, ⟨hw, flags, hst, hm⟩, hb⟩
    · rw [if_neg hm] at h; cases h
      exact ⟨.inr ⟨.tau, .upd .ok, baseS tk s, rfl, rfl, rfl, upd_same (by rw [← baseS_wod tk] at hw; exact hw)
        (by rw [← baseS_status tk] at hst; exact hst) (by rw [← baseS_mask tk] at hm; exact hm)⟩, trivial, hb⟩
  case mask =>
    cases h
    exact ⟨.inl ⟨rfl, rfl, rfl, rfl⟩, ⟨hok.1, hok.2, rfl⟩, hb⟩
  case tryLock mask =>
    unfold stepSock at h; dsimp only at h
    obtain ⟨hw, hst, hm⟩ := hok
    have hn : s.op = .none := by
      have := hop.2 (by rw [← baseS_status tk] at hst; exact hst)
      rw [← baseS_op tk]; exact this
    subst hm
    by_cases hi : s.inUse = true
    · rw [if_pos hi] at h; cases h
      refine ⟨.inr ⟨.tau, .upd .ok, { s with status := .polling s.mask }, rfl, rfl, by rw [baseS_none hn]; rfl, ?_⟩, trivial, hb⟩
      rw [baseS_none hn]
      exact upd_busy hw hst hi
    · rw [if_neg hi] at h; cases h
      refine ⟨.inl ⟨rfl, rfl, rfl, ?_⟩, ⟨hw, hst, rfl, rfl, hn⟩, hb⟩
      rw [baseS_none hn, baseS_none (s := { s with inUse := true }) hn]
      have : s.inUse = false := by simpa using hi
      show { s with inUse := false } = s
      rw [← this]
  case info mask =>
    cases h
    exact ⟨.inl ⟨rfl, rfl, rfl, rfl⟩, hok, by rw [hok.2.2.2.2] at hb ⊢; exact hb⟩
  case iosb mask =>
    cases h
    exact ⟨.inl ⟨rfl, rfl, rfl, rfl⟩, ⟨hok.1, hok.2.1, hok.2.2.1, hok.2.2.2.1, hok.2.2.2.2, rfl⟩,
      by rw [hok.2.2.2.2] at hb ⊢; exact hb⟩
  case ioctl mask =>
    unfold stepSock at h; dsimp only at h
    obtain ⟨hw, hst, hm, hi, hn, hpend⟩ := hok
    subst hm
    have hsi : { s with inUse := true } = s := by rw [← hi]
    cases fault with
    | none =>
      cases h
      refine ⟨.inr ⟨.polled s.mask, .upd .ok, { s with inUse := true, status := .polling s.mask, op := .inFlight s.mask false },
        rfl, rfl, ?_, ?_⟩, trivial, ?_⟩
      · rw [baseS_notDone rfl]
        exact congrArg (fun u => some (Out.upd .ok, { s with inUse := u, status := .polling s.mask, op := .inFlight s.mask false })) hi
      · rw [baseS_none hn]
        exact upd_start (s := { s with inUse := false }) hw hst rfl
      · rw [hn] at hb
        have hb' : written = none := hb
        rw [hb']; exact hpend
    | some e =>
      dsimp only at h
      by_cases ht : tolerated e = true
      · rw [if_pos ht] at h; cases h
        refine ⟨.inr ⟨.tau, .upd .ok, { s with inUse := true, status := .polling s.mask }, rfl, rfl,
          by rw [baseS_none hn]; exact congrArg (fun u => some (Out.upd .ok, { s with inUse := u, status := .polling s.mask })) hi, ?_⟩,
          trivial, hb⟩
        rw [baseS_none hn]
        exact upd_tolerated (s := { s with inUse := false }) hw hst rfl ht
      · rw [if_neg ht] at h; cases h
        refine ⟨.inr ⟨.tau, .upd (.err e), { s with inUse := true }, rfl, rfl, by rw [baseS_none hn, hsi]; rfl, ?_⟩, trivial, hb⟩
        rw [baseS_none hn]
        exact upd_refused (s := { s with inUse := false }) hw hst rfl ht
  case pending del =>
    unfold stepSock at h; dsimp only at h
    by_cases hpd : b.status = .pending
    · rw [if_pos hpd] at h; cases h
      cases del
      · exact ⟨.inl ⟨rfl, rfl, rfl, rfl⟩, hok, hb⟩
      · exact ⟨.inl ⟨rfl, rfl, rfl, rfl⟩, hok, hb⟩
    · rw [if_neg hpd] at h; cases h
      refine ⟨.inr ⟨cancelMark del .ok, cancelOut del .ok, { baseS tk s with status := .cancelled, op := s.op.cancel }, rfl, rfl, ?_, ?_⟩,
        trivial, bufOk_cancel hb⟩
      · rw [baseS_cancel]; rfl
      · cases del
        · obtain ⟨hw, flags, hst, hm⟩ := hok
          refine (upd_cancel (s := baseS tk s) (by rw [baseS_wod]; exact hw) (by rw [baseS_status]; exact hst)
            (by rw [baseS_mask]; exact hm)).trans ?_
          show (Out.upd .ok, Pkt.socket { baseS tk s with status := .cancelled, op := (baseS tk s).op.cancel }, Mark.tau) = _
          rw [baseS_op]; rfl
        · obtain ⟨hw, flags, hst⟩ := hok
          refine (del_cancel (s := { baseS tk s with waitingOnDelete := false }) rfl (by rw [← hst]; exact baseS_status tk s)).trans ?_
          show (Out.del .ok, Pkt.socket { baseS tk s with waitingOnDelete := true, status := .cancelled, op := (baseS tk s).op.cancel },
            Mark.ended .ok) = _
          rw [baseS_op]
          exact congrArg (fun x : Sock => (Out.del .ok, Pkt.socket { x with status := .cancelled, op := s.op.cancel }, Mark.ended .ok))
            (wod_eta ((baseS_wod tk s).trans hw))
  case cancelIo del =>
    unfold stepSock at h; dsimp only at h
    cases fault with
    | some e =>
      cases h
      refine ⟨.inr ⟨cancelMark del (.err e), cancelOut del (.err e), baseS tk s, rfl, rfl, rfl, ?_⟩, trivial, hb⟩
      cases del
      · obtain ⟨hw, flags, hst, hm⟩ := hok
        exact upd_cancel (s := baseS tk s) (by rw [baseS_wod]; exact hw) (by rw [baseS_status]; exact hst)
            (by rw [baseS_mask]; exact hm)
      · obtain ⟨hw, flags, hst⟩ := hok
        refine (del_cancel (s := { baseS tk s with waitingOnDelete := false }) rfl (by rw [← hst]; exact baseS_status tk s)).trans ?_
        show (Out.del (.err e), Pkt.socket { baseS tk s with waitingOnDelete := true }, Mark.ended (.err e)) = _
        exact congrArg (fun x : Sock => (Out.del (.err e), Pkt.socket x, Mark.ended (.err e))) (wod_eta ((baseS_wod tk s).trans hw))
    | none =>
      cases h
      refine ⟨.inr ⟨cancelMark del .ok, cancelOut del .ok, { baseS tk s with status := .cancelled, op := s.op.cancel }, rfl, rfl, ?_, ?_⟩,
        trivial, bufOk_cancel hb⟩
      · rw [baseS_cancel]; rfl
      · cases del
        · obtain ⟨hw, flags, hst, hm⟩ := hok
          refine (upd_cancel (s := baseS tk s) (by rw [baseS_wod]; exact hw) (by rw [baseS_status]; exact hst)
            (by rw [baseS_mask]; exact hm)).trans ?_
          show (Out.upd .ok, Pkt.socket { baseS tk s with status := .cancelled, op := (baseS tk s).op.cancel }, Mark.tau) = _
          rw [baseS_op]; rfl
        · obtain ⟨hw, flags, hst⟩ := hok
          refine (del_cancel (s := { baseS tk s with waitingOnDelete := false }) rfl (by rw [← hst]; exact baseS_status tk s)).trans ?_
          show (Out.del .ok, Pkt.socket { baseS tk s with waitingOnDelete := true, status := .cancelled, op := (baseS tk s).op.cancel },
            Mark.ended .ok) = _
          rw [baseS_op]
          exact congrArg (fun x : Sock => (Out.del .ok, Pkt.socket { x with status := .cancelled, op := s.op.cancel }, Mark.ended .ok))
            (wod_eta ((baseS_wod tk s).trans hw))
  case delRead =>
    unfold stepSock at h; dsimp only at h
    by_cases hw : s.waitingOnDelete = true
    · rw [if_pos hw] at h; cases h
      exact ⟨.inr ⟨.ended .ok, .del .ok, baseS tk s, rfl, rfl, rfl, del_deleted (by rw [← baseS_wod tk] at hw; exact hw)⟩, trivial, hb⟩
    · rw [if_neg hw] at h; cases h
      have hw' : s.waitingOnDelete = false := by simpa using hw
      exact ⟨.inl ⟨rfl, rfl, rfl, rfl⟩, hw', hb⟩
  case delWrite =>
    cases h
    refine ⟨.inl ⟨rfl, rfl, rfl, ?_⟩, rfl, hb⟩
    have hw : s.waitingOnDelete = false := hok
    unfold baseS
    dsimp only
    split
    · show { s with inUse := true, waitingOnDelete := false } = { s with inUse := true }
      rw [← hw]
    · show { s with waitingOnDelete := false } = s
      rw [← hw]
  case delStatus =>
    unfold stepSock at h; dsimp only at h
    have hw : s.waitingOnDelete = true := hok
    have hcases : (∃ flags, s.status = .polling flags) ∨ (∀ flags, s.status ≠ .polling flags) := by
      cases s.status with
      | polling flags => exact .inl ⟨flags, rfl⟩
      | idle => exact .inr nofun
      | cancelled => exact .inr nofun
    rcases hcases with ⟨flags, hst⟩ | hst
    · rw [hst] at h; cases h
      exact ⟨.inl ⟨rfl, rfl, rfl, rfl⟩, ⟨hw, flags, hst⟩, hb⟩
    · have h' : (Pos.fin (.del .ok), s, b, some (Mark.ended .ok)) = (pos', s', b', mk) := by
        cases hs : s.status with
        | polling flags => exact absurd hs (hst flags)
        | idle => rw [hs] at h; cases h; rfl
        | cancelled => rw [hs] at h; cases h; rfl
      cases h'
      refine ⟨.inr ⟨.ended .ok, .del .ok, baseS tk s, rfl, rfl, rfl, ?_⟩, trivial, hb⟩
      refine (del_idle (s := { baseS tk s with waitingOnDelete := false }) rfl fun flags hs => hst flags ?_).trans ?_
      · rw [← hs]; exact (baseS_status tk s).symm
      · exact congrArg (fun x : Sock => (Out.del .ok, Pkt.socket x, Mark.ended .ok)) (wod_eta ((baseS_wod tk s).trans hw))
  case key =>
    cases h
    exact ⟨.inl ⟨rfl, rfl, rfl, rfl⟩, ⟨hok, rfl⟩, hb⟩
  case idle key =>
    cases h
    refine ⟨.inl ⟨rfl, rfl, rfl, ?_⟩, ⟨hok.1, hok.2, rfl⟩, hb⟩
    rw [baseS_feeding hok.1, baseS_feeding (s := { s with status := .idle }) hok.1]
    rfl
  case feedWod key old =>
    unfold stepSock at h; dsimp only at h
    obtain ⟨hf, hk, hst⟩ := hok
    by_cases hw : s.waitingOnDelete = true
    · rw [if_pos hw] at h; cases h
      obtain ⟨r, hr⟩ : ∃ r, s.op = .done r := by
        cases ho : s.op with
        | done r => exact ⟨r, rfl⟩
        | none => have := hf.2.1; rw [ho] at this; cases this
        | inFlight m c => have := hf.2.1; rw [ho] at this; cases this
      rw [hr] at hb
      refine ⟨.inr ⟨.tau, .noEvent, { s with op := .none }, rfl, rfl, by rw [baseS_none rfl]; rfl, ?_⟩, trivial, hb.1⟩
      rw [baseS_feeding hf]
      refine (feed_deleted (s := { s with inUse := true, status := old }) hr hw).trans ?_
      show (Out.noEvent, Pkt.socket { s with status := .idle, inUse := false, op := .none }, Mark.tau) = _
      rw [← hst, ← hf.2.2]
    · rw [if_neg hw] at h; cases h
      exact ⟨.inl ⟨rfl, rfl, rfl, rfl⟩, ⟨hf, hk, hst, by simpa using hw⟩, hb⟩
  case feedIosb key old =>
    cases h
    obtain ⟨hf, hk, hst, hw⟩ := hok
    obtain ⟨r, hr⟩ : ∃ r, s.op = .done r := by
      cases ho : s.op with
      | done r => exact ⟨r, rfl⟩
      | none => have := hf.2.1; rw [ho] at this; cases this
      | inFlight m c => have := hf.2.1; rw [ho] at this; cases this
    have hb' := hb
    rw [hr] at hb'
    have hmt := hb'.2
    cases r with
    | cancelled =>
      rw [show b.status = .cancelled from hmt]
      exact ⟨.inl ⟨rfl, rfl, rfl, rfl⟩, ⟨hf, hst, hw, .cancelled, hr, rfl, by rw [hk]; rfl⟩, hb⟩
    | error =>
      rw [show b.status = .error from hmt]
      exact ⟨.inl ⟨rfl, rfl, rfl, rfl⟩, ⟨hf, hst, hw, .error, hr, rfl, by rw [hk]; rfl⟩, hb⟩
    | ok n e =>
      rw [show b.status = .success from hmt.1]
      exact ⟨.inl ⟨rfl, rfl, rfl, rfl⟩, ⟨hf, hk, hst, hw, by rw [hr, hmt.2.1, hmt.2.2]⟩, hb⟩
  case feedInfo key old =>
    unfold stepSock at h; dsimp only at h
    obtain ⟨hf, hk, hst, hw, hr⟩ := hok
    by_cases hn : b.count ≥ 1
    · rw [if_pos hn] at h
      by_cases hl : intersects b.events LOCAL_CLOSE = true
      · rw [if_pos hl] at h; cases h
        rw [hr] at hb
        refine ⟨.inr ⟨.tau, .localClose, { s with op := .none }, rfl, rfl, by rw [baseS_none rfl]; rfl, ?_⟩, trivial, hb.1⟩
        rw [baseS_feeding hf]
        refine (feed_close (s := { s with inUse := true, status := old }) hr hw
          (by simp only [isLocalClose, hl, hn, decide_true, Bool.and_self])).trans ?_
        show (Out.localClose, Pkt.socket { s with status := .idle, inUse := false, op := .none }, Mark.tau) = _
        rw [← hst, ← hf.2.2]
      · rw [if_neg hl] at h; cases h
        refine ⟨.inl ⟨rfl, rfl, rfl, rfl⟩, ⟨hf, hst, hw, _, hr, ?_, ?_⟩, hb⟩
        · simp only [isLocalClose]; simp [hl]
        · rw [hk]; unfold rawEvent; dsimp only; rw [if_pos hn]; rfl
    · rw [if_neg hn] at h; cases h
      refine ⟨.inl ⟨rfl, rfl, rfl, rfl⟩, ⟨hf, hst, hw, _, hr, ?_, ?_⟩, hb⟩
      · simp only [isLocalClose]; simp [hn]
      · rw [hk]; unfold rawEvent; dsimp only; rw [if_neg hn]
  case feedInterest ev old =>
    unfold stepSock at h; dsimp only at h
    obtain ⟨hf, hst, hw, r, hr, hl, hev⟩ := hok
    have hb' := hb
    rw [hr] at hb'
    by_cases hwant : wanted s (narrowed s ev) = true
    · rw [if_pos hwant] at h; cases h
      refine ⟨.inr ⟨.deliver true s.socket (narrowed s ev), .fed (some (narrowed s ev)), _, rfl, rfl, by rw [baseS_none rfl]; rfl, ?_⟩,
        trivial, hb'.1⟩
      rw [baseS_feeding hf]
      refine (feed_some (s := { s with inUse := true, status := old }) hr hw hl (ev := narrowed s ev) (by rw [hev]; rfl) hwant).trans ?_
      show (Out.fed (some (narrowed s ev)), Pkt.socket (if s.mode = .oneshot then
          { s with status := .idle, inUse := false, op := .none, interest := Event.none s.interest.key, interestError := false }
        else { s with status := .idle, inUse := false, op := .none }), Mark.deliver true s.socket (narrowed s ev)) = _
      rw [← hst, ← hf.2.2]
    · rw [if_neg hwant] at h; cases h
      refine ⟨.inr ⟨.tau, .fed none, _, rfl, rfl, by rw [baseS_none rfl]; rfl, ?_⟩, trivial, hb'.1⟩
      rw [baseS_feeding hf]
      refine (feed_none (s := { s with inUse := true, status := old }) hr hw hl (ev := narrowed s ev) (by rw [hev]; rfl) hwant).trans ?_
      show (Out.fed none, Pkt.socket { s with status := .idle, inUse := false, op := .none }, Mark.tau) = _
      rw [← hst, ← hf.2.2]

/-- As `PreStep`, for waitables. -/
def PreStepW (fault : Option Err) (pos : Pos) (w : Wtb) (pos' : Pos) (w' : Wtb) (mk : Option Mark) : Prop :=
  (mk = none ∧ pos'.post = false ∧ preKind pos' = preKind pos ∧ w' = w) ∨
  ∃ mark out w'', mk = some mark ∧ pos'.post = true ∧ finishW pos' w' = some (out, w'') ∧
    atomic (preKind pos) (callFault fault pos) (.waitable w) = (out, .waitable w'', mark)

theorem unregister_eq {w : Wtb} (h : w.registered = true → w.status = .waiting) : unregister w = { w with registered := false } := by
  unfold unregister
  cases hr : w.registered with
  | false => rfl
  | true => rw [h hr]; rfl

theorem wupd_eq {fault w r w'} (h : updateWtb fault w = (r, w')) : atomic .upd fault (.waitable w) = (.upd r, .waitable w', .tau) := by
  simp only [atomic, h]

theorem wtb_pre {fault w pos pos' w' mk} (hp : pos.post = false) (hok : WtbOk w pos) (hreg : w.registered = true → w.status = .waiting)
    (h : stepWtb fault w pos = some (pos', w', mk)) : PreStepW fault pos w pos' w' mk ∧ WtbOk w' pos' := by
  cases pos <;> first | (cases hp; done) | skip
  all_goals try (exact hok.elim)
  case winterest =>
    unfold stepWtb at h; dsimp only at h
    by_cases hi : (!w.interest.readable && !w.interest.writable) = true
    · rw [if_pos hi] at h; cases h
      have : updateWtb none w = (.ok, w) := by unfold updateWtb; exact if_pos hi
      exact ⟨.inr ⟨.tau, .upd .ok, w, rfl, rfl, rfl, wupd_eq this⟩, trivial⟩
    · rw [if_neg hi] at h; cases h
      have hi' : (!w.interest.readable && !w.interest.writable) = false := Bool.eq_false_iff.mpr hi
      exact ⟨.inl ⟨rfl, rfl, rfl, rfl⟩, hi'⟩
  case wstatus =>
    unfold stepWtb at h; dsimp only at h
    have hi : (!w.interest.readable && !w.interest.writable) = false := hok
    by_cases hs : w.status ≠ .idle
    · rw [if_pos hs] at h; cases h
      have : updateWtb none w = (.ok, w) := by unfold updateWtb; rw [hi]; exact if_pos hs
      exact ⟨.inr ⟨.tau, .upd .ok, w, rfl, rfl, rfl, wupd_eq this⟩, trivial⟩
    · rw [if_neg hs] at h; cases h
      exact ⟨.inl ⟨rfl, rfl, rfl, rfl⟩, hi, by simpa using hs⟩
  case register =>
    unfold stepWtb at h; dsimp only at h
    obtain ⟨hi, hs⟩ := hok
    have hs' : ¬ w.status ≠ .idle := by simpa using hs
    cases fault with
    | some e =>
      cases h
      have : updateWtb (some e) w = (.err e, w) := by unfold updateWtb; rw [hi]; exact if_neg hs'
      exact ⟨.inr ⟨.tau, .upd (.err e), w, rfl, rfl, rfl, wupd_eq this⟩, trivial⟩
    | none =>
      cases h
      have : updateWtb none w = (.ok, { w with status := .waiting, registered := true }) := by
        unfold updateWtb; rw [hi]; exact if_neg hs'
      exact ⟨.inr ⟨.tau, .upd .ok, _, rfl, rfl, rfl, wupd_eq this⟩, trivial⟩
  case wfeed =>
    cases h
    exact ⟨.inr ⟨_, _, _, rfl, rfl, rfl, rfl⟩, trivial⟩
  case wunregister =>
    cases h
    rw [unregister_eq hreg]
    exact ⟨.inr ⟨_, _, _, rfl, rfl, rfl, rfl⟩, trivial⟩
  case cunregister =>
    cases h
    rw [unregister_eq hreg]
    exact ⟨.inr ⟨_, _, _, rfl, rfl, rfl, rfl⟩, trivial⟩

/-- In the coarse machine a registered wait is recorded in the status. -/
def RegOk (x : Pkt) : Prop := ∀ w, x = .waitable w → w.registered = true → w.status = .waiting

theorem regOk_setPk {c : Core} {q x} (h : ∀ p, RegOk (c.pk p)) (hx : RegOk x) : ∀ p, RegOk ((setPk c q x).pk p) := by
  intro p
  by_cases e : p = q
  · subst e; rw [setPk_self]; exact hx
  · rw [setPk_other _ _ e]; exact h p

theorem regOk_feed {c q} (h : ∀ p, RegOk (c.pk p)) : ∀ p, RegOk ((feed c q).2.pk p) := by
  rcases feed_cases c q with ⟨s, r, e1, e2, e3, e4⟩ | ⟨s, r, e1, e2, e3, e4, e5⟩ | ⟨s, r, e1, e2, e3, e4, e5⟩ | ⟨w, e1, e5⟩ | ⟨e, e1, e2⟩ |
      ⟨e1, e2⟩ | ⟨e1, e2⟩
  · rw [e4]; exact regOk_setPk h nofun
  · rw [e5]; exact regOk_setPk h nofun
  · rw [e5]; exact regOk_setPk h nofun
  · rw [e5]
    refine regOk_setPk h ?_
    intro w' hw'; cases hw'
    have := h q w e1
    split <;> exact this
  · rw [e2]; exact h
  · rw [e2]; exact h
  · rw [e2]; exact h

theorem regOk_eff {c o c'} (h : ∀ p, RegOk (c.pk p)) (he : Eff c o c') : ∀ p, RegOk (c'.pk p) := by
  cases he with
  | quiet h1 _ _ _ => rw [h1]; exact h
  | insert _ h1 _ _ _ =>
    rw [h1]
    refine regOk_setPk (c := c) h ?_
    intro w hw hr
    unfold newPkt at hw
    split at hw <;> cases hw
    cases hr
  | remove _ h1 _ _ => rw [h1]; exact h
  | @set p t k fd ev mode _ =>
    unfold setEvents
    split
    · exact regOk_setPk h nofun
    · rename_i w hw
      refine regOk_setPk h ?_
      intro w' hw'; cases hw'
      exact h _ w hw
    · exact h
  | @del p t k fd fault =>
    unfold beginDelete
    split
    · split
      · exact h
      · rename_i x hx _
        cases hs : x.status <;> exact regOk_setPk h nofun
    · refine regOk_setPk h ?_
      intro w' hw' hr; cases hw'; cases hr
    · exact h
  | @update p fault _ _ =>
    unfold update
    split
    · exact regOk_setPk h nofun
    · rename_i w hw
      refine regOk_setPk h ?_
      intro w' hw'; cases hw'
      have := h p w hw
      unfold updateWtb
      repeat' split
      all_goals first | exact this | exact fun _ => rfl
    · exact h
  | feed => exact regOk_feed h
  | feedQuiet => exact regOk_feed h
  | @drop p _ _ =>
    show ∀ q, RegOk ((dropEntry c p).pk q)
    unfold dropEntry
    split
    · exact regOk_setPk h nofun
    · exact h
  | packet h1 _ _ _ =>
    rw [h1]
    exact regOk_setPk (c := c) h nofun
  | complete _ _ _ h1 _ _ => rw [h1]; exact regOk_setPk h nofun
  | wtb _ h1 _ _ =>
    rw [h1]
    refine regOk_setPk h ?_
    intro w' hw' hr; cases hw'; cases hr

theorem reach_reg {n P s tr} (h : Reach n P s tr) : ∀ p, RegOk (s.c.pk p) := by
  induction h with
  | init =>
    intro p w hw
    have : (if p = NOTIFIER then Pkt.wakeup else Pkt.free) = .waitable w := hw
    split at this <;> cases this
  | step h _ hs ih => exact regOk_eff ih (reach_eff h hs)

end Polling.IocpF
