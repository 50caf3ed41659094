import Verif.Proof.PacketRcLost

/-! C48: packets are freed as soon as nothing needs them. -/

namespace Polling.C48
open Iocp IocpM IocpM.Rc

/-- No call is in progress. -/
def NoCalls (r : R) : Prop := r.s.phase = .idle ∧ ∀ t, r.s.pc t = .out

/-- Nothing needs the packet: it is not registered, not queued for an update, not in the completion port, no operation or wait of
the kernel uses it, no callback has it, the user does not have it, and it is not the notifier of a poller that exists. -/
def Unneeded (r : R) (p : PId) : Prop :=
  (∀ k fd, r.s.c.table k fd ≠ some p) ∧ p ∉ r.s.c.pending ∧ p ∉ r.s.c.port ∧
  (∀ k, r.s.c.pk p = .socket k → ∀ m b, k.op ≠ .inFlight m b) ∧ (∀ w, r.s.c.pk p = .waitable w → w.registered = false) ∧
  p ∉ r.s.cb ∧ p ∉ r.s.cbPost ∧ r.user p = 0 ∧ (r.alive = true → p ≠ NOTIFIER)

/-- Steps that lose nothing: the OS does not refuse an operation on a packet, a waitable handle is not removed while its wait is
registered, and the poller is dropped when the completion port is empty and no AFD operation completes afterwards. -/
def Keeps (r : R) : RAct → Prop
  | .act (.go t fault) =>
    (∀ call u, r.s.pc t = .upd call u → fault = none) ∧
    (∀ call p w, r.s.pc t = .del call p → r.s.c.pk p = .waitable w → w.registered = false)
  | .act (.wait fault) | .act (.post _ fault) | .act (.notifyPost _ fault) => fault = none
  | .act (.callbackPost _ fault) => fault = none ∧ r.alive = true
  | .act (.complete ..) => r.alive = true
  | .dropPoller => r.s.c.port = []
  | _ => True

theorem refs_zero {n : Nat} {r : R} {p : PId} (hi : Inv n r) (hc : NoCalls r) : r.h.rc p = 0 ↔ Unneeded r p ∧ r.lost p = 0 := by
  rw [hi.bal p]
  unfold refs locals
  rw [hc.1, sumT_out fun t _ => hc.2 t]
  have h1 := core_zero (p := p) hi.ok.ids
  have h2 := List.count_eq_zero (a := p) (l := r.s.cb)
  have h3 := List.count_eq_zero (a := p) (l := r.s.cbPost)
  have h4 : (if r.alive = true ∧ p = NOTIFIER then 1 else 0) = 0 ↔ (r.alive = true → p ≠ NOTIFIER) := by
    by_cases ha : r.alive = true <;> by_cases hp : p = NOTIFIER <;> simp [ha, hp]
  unfold Unneeded
  rw [← h2, ← h3, ← h4]
  constructor
  · intro h
    have h5 := h1.1 (by omega)
    exact ⟨⟨h5.1, h5.2.1, h5.2.2.1, h5.2.2.2.1, h5.2.2.2.2, by omega, by omega, by omega, by omega⟩, by omega⟩
  · rintro ⟨⟨a1, a2, a3, a4, a5, a6, a7, a8, a9⟩, a10⟩
    have := h1.2 ⟨a1, a2, a3, a4, a5⟩
    show coreRefs r.s.c p + (0 + 0 + _ + _) + _ + _ + _ = 0
    omega

theorem keeps_lost {n r} (h : Rc.Reach n Keeps r) : ∀ q, r.lost q = 0 := by
  induction h with
  | init => exact fun _ => rfl
  | @step r a r' hr hk hs ih =>
    have add : ∀ {l : List PId}, l = [] → ∀ q, addLost r.lost l q = 0 := by
      rintro l rfl q; exact ih q
    cases a with
    | act a =>
      simp only [rstep] at hs
      split at hs
      · rename_i ha
        split at hs
        · obtain ⟨⟨s', o⟩, hst, rfl⟩ := Option.map_eq_some_iff.1 hs
          refine add ?_
          cases a with
          | go t fault =>
            simp only [Keeps] at hk
            simp only [actLost, goLost]
            cases hpc : r.s.pc t with
            | del call p =>
              dsimp only
              cases hp : r.s.c.pk p with
              | waitable w => dsimp only; rw [hk.2 call p w hpc hp]; rfl
              | _ => rfl
            | upd call u => rw [hk.1 call u hpc]; exact ustep_lost_none _ _
            | _ => rfl
          | wait fault => simp only [Keeps] at hk; rw [hk]; exact wait_lost_none _
          | post p fault => simp only [Keeps] at hk; rw [hk]; rfl
          | notifyPost t fault => simp only [Keeps] at hk; rw [hk]; rfl
          | callbackPost p fault => simp only [Keeps] at hk; rw [hk.1]; rfl
          | callback p =>
            obtain ⟨tr, hR⟩ := (reach_inv hr).live ha
            simp only [actLost]
            cases hp : r.s.c.pk p with
            | waitable w =>
              simp only [step, hp] at hst
              split at hst
              · rename_i hm
                have := (reach_busy hR p).2 hm
                rw [hp] at this
                dsimp only; rw [this.2]; rfl
              · cases hst
            | _ => rfl
          | _ => rfl
        · cases hs
      · rename_i ha
        cases a <;> simp only [deadStep] at hs
        case complete p res => exact absurd hk ha
        case fire p => obtain ⟨x, _, rfl⟩ := Option.map_eq_some_iff.1 hs; exact ih
        case callback p => split at hs <;> cases hs; exact ih
        case callbackPost p fault => exact absurd hk.2 ha
        case newPacket ev => obtain ⟨x, _, rfl⟩ := Option.map_eq_some_iff.1 hs; exact ih
        all_goals cases hs
    | userClone p =>
      simp only [rstep] at hs
      split at hs <;> cases hs
      exact ih
    | userDrop p =>
      simp only [rstep] at hs
      split at hs <;> cases hs
      exact ih
    | dropPoller =>
      simp only [rstep, dropPoller] at hs
      split at hs <;> cases hs
      exact add hk

/-- Partial: only for executions in which no reference is lost (`Keeps`); see the witnesses below.  When no call is in progress, a
packet is freed exactly if nothing needs it. -/
theorem freed_iff_unneeded_partial {n r} (h : Rc.Reach n Keeps r) (hc : NoCalls r) (p : PId) : r.h.rc p = 0 ↔ Unneeded r p := by
  rw [refs_zero (reach_inv h) hc]
  exact ⟨fun h => h.1, fun h1 => ⟨h1, keeps_lost h p⟩⟩

/-- Partial in the same way: once the poller is dropped and no operation or wait is left, all packets are freed apart from those
the user has. -/
theorem nothing_left_after_drop_partial {n r} (h : Rc.Reach n Keeps r) (ha : r.alive = false)
    (hk : ∀ p, (∀ k, r.s.c.pk p = .socket k → ∀ m b, k.op ≠ .inFlight m b) ∧ (∀ w, r.s.c.pk p = .waitable w → w.registered = false))
    (hcb : r.s.cb = []) (hcp : r.s.cbPost = []) (p : PId) (hu : r.user p = 0) : r.h.rc p = 0 := by
  obtain ⟨d1, d2, d3, d4, d5⟩ := (reach_inv h).dead ha
  rw [freed_iff_unneeded_partial h ⟨d4, d5⟩]
  refine ⟨by rw [d3]; nofun, by rw [d2]; nofun, by rw [d1]; nofun, (hk p).1, (hk p).2, by rw [hcb]; nofun, by rw [hcp]; nofun, hu, ?_⟩
  rw [ha]; nofun

/-- In every execution: when no call is in progress, a packet that is needed is not freed, and one that is not needed is either
freed or leaked for good, i.e. it is never freed whatever happens next. -/
theorem freed_or_leaked {n P r} (h : Rc.Reach n P r) (hc : NoCalls r) (p : PId) :
    (¬ Unneeded r p → 0 < r.h.rc p) ∧
    (Unneeded r p → r.h.rc p = 0 ∨ ∀ as r', runR n r as = some r' → 0 < r'.h.rc p) := by
  have hi := reach_inv h
  have hz := refs_zero (p := p) hi hc
  refine ⟨fun hn => ?_, fun hu => ?_⟩
  · rcases Nat.eq_zero_or_pos (r.h.rc p) with h0 | h0
    · exact absurd (hz.1 h0).1 hn
    · exact h0
  · rcases Nat.eq_zero_or_pos (r.lost p) with h0 | h0
    · exact .inl (hz.2 ⟨hu, h0⟩)
    · refine .inr fun as r' hr => ?_
      have h1 := runR_mono hr p
      have h2 := (runR_inv hi hr).bal p
      unfold refs at h2
      omega

/-- The packet is leaked: nothing needs it and it is never freed, whatever happens next. -/
def Leaked (n : Nat) (r : R) (p : PId) : Prop := Unneeded r p ∧ ∀ as r', runR n r as = some r' → 0 < r'.h.rc p

theorem reach_run {n} : ∀ {as r r'}, Rc.Reach n (fun _ _ => True) r → runR n r as = some r' → Rc.Reach n (fun _ _ => True) r'
  | [], r, r', hi, h => by cases h; exact hi
  | a :: as, r, r', hi, h => by
    simp only [runR] at h
    obtain ⟨r1, h1, h2⟩ := Option.bind_eq_some_iff.1 h
    exact reach_run (.step hi trivial h1) h2

/-- A way to see that a packet is leaked. -/
theorem leaked_of {n as p} (h : (runR n Rc.init as).map (fun r => r.h.rc p == r.lost p && r.lost p != 0) = some true) :
    ∃ r, runR n Rc.init as = some r ∧ Leaked n r p := by
  obtain ⟨r, hr, h2⟩ := Option.map_eq_some_iff.1 h
  simp only [Bool.and_eq_true, beq_iff_eq, bne_iff_ne, ne_eq] at h2
  have hi := runR_inv (inv_init n) hr
  have hb := hi.bal p
  unfold refs locals at hb
  have h1 := (core_zero (p := p) hi.ok.ids).1 (by omega)
  refine ⟨r, hr, ⟨h1.1, h1.2.1, h1.2.2.1, h1.2.2.2.1, h1.2.2.2.2, List.count_eq_zero.1 (by omega), List.count_eq_zero.1 (by omega), by omega, ?_⟩, ?_⟩
  · rintro ha rfl
    rw [if_pos ⟨ha, rfl⟩] at hb
    omega
  · intro as' r' hr'
    have h1 := runR_mono hr' p
    have h2 := (runR_inv hi hr').bal p
    unfold refs at h2
    omega

/-! ### Leaks -/

/-- Registered events of the witnesses. -/
def ev : Event EventExtra := ⟨7, true, false, ⟨0#32⟩⟩

def addSock : List RAct := [.act (.call 0 (.add true 3 ev .oneshot)), .act (.go 0 none), .act (.go 0 none), .act (.go 0 none), .act (.go 0 none), .act (.go 0 none)]
def addWtb : List RAct := [.act (.call 0 (.add false 3 ev .oneshot)), .act (.go 0 none), .act (.go 0 none), .act (.go 0 none), .act (.go 0 none)]
def del (k : Bool) : List RAct := [.act (.call 0 (.delete k 3)), .act (.go 0 none), .act (.go 0 none)]
/-- A `wait` up to the update of the first packet of the queue. -/
def waitUpd (fault : Option Err) : List RAct := [.act (.waitBegin true 1024), .act (.wait none), .act (.wait none), .act (.wait none), .act (.wait fault)]
/-- The rest of a `wait` that times out. -/
def waitEnd : List RAct := [.act (.wait none), .act .get, .act (.wait none), .act (.decide true), .act (.wait none)]
/-- Against the full claim: if AFD refuses the poll operation, the packet is leaked (afd.rs:470-500), even if the socket is deleted. -/
theorem refused_poll_leaks : ∃ r, runR 1 Rc.init (addSock ++ waitUpd (some (.os 5)) ++ [.act (.wait none)] ++ del true) = some r ∧ Leaked 1 r 1 :=
  leaked_of (by decide +kernel)

/-- Against the full claim: if `RegisterWaitForSingleObject` fails, the packet is leaked (iocp/mod.rs:1245-1258). -/
theorem refused_register_leaks : ∃ r, runR 1 Rc.init (addWtb ++ waitUpd (some (.os 5)) ++ [.act (.wait none)] ++ del false) = some r ∧ Leaked 1 r 1 :=
  leaked_of (by decide +kernel)

/-- Against the full claim: if `post` fails, the packet is leaked although it is passed by value (iocp/port.rs:199-216). -/
theorem refused_post_leaks : ∃ r, runR 1 Rc.init [.act (.newPacket ev), .act (.post 1 (some (.os 5)))] = some r ∧ Leaked 1 r 1 :=
  leaked_of (by decide +kernel)

/-- Against the full claim: a waitable handle that is removed before it is signaled leaks its packet; no error is involved
(iocp/mod.rs:1065, 1196-1204: the box given to the kernel is only freed by the callback). -/
theorem removed_waitable_leaks : ∃ r, runR 1 Rc.init (addWtb ++ waitUpd none ++ waitEnd ++ del false) = some r ∧ Leaked 1 r 1 :=
  leaked_of (by decide +kernel)

/-- Against the full claim: a packet that was posted and not received when the poller is dropped is leaked. -/
theorem posted_then_dropped_leaks : ∃ r, runR 1 Rc.init [.act (.newPacket ev), .act (.post 1 none), .dropPoller] = some r ∧ Leaked 1 r 1 :=
  leaked_of (by decide +kernel)

/-- Against the full claim: a socket that is polled when the poller is dropped leaks its packet. -/
theorem polled_then_dropped_leaks :
    ∃ r, runR 1 Rc.init (addSock ++ waitUpd none ++ waitEnd ++ [.dropPoller, .act (.complete 1 .error)]) = some r ∧ Leaked 1 r 1 :=
  leaked_of (by decide +kernel)

/-- Against the full claim: so does a socket that is deleted before, if no `wait` receives the end of its operation. -/
theorem deleted_then_dropped_leaks :
    ∃ r, runR 1 Rc.init (addSock ++ waitUpd none ++ waitEnd ++ del true ++ [.act (.complete 1 .cancelled), .dropPoller]) = some r ∧ Leaked 1 r 1 :=
  leaked_of (by decide +kernel)

/-! ### Cases that meet the hypotheses -/

/-- A check for `Keeps`. -/
def keepsB (r : R) : RAct → Bool
  | .act (.go t fault) =>
    (match r.s.pc t with | .upd .. => fault.isNone | _ => true) &&
    (match r.s.pc t with | .del _ p => (match r.s.c.pk p with | .waitable w => !w.registered | _ => true) | _ => true)
  | .act (.wait fault) | .act (.post _ fault) | .act (.notifyPost _ fault) => fault.isNone
  | .act (.callbackPost _ fault) => fault.isNone && r.alive
  | .act (.complete ..) => r.alive
  | .dropPoller => r.s.c.port.isEmpty
  | _ => true

theorem keeps_of {r a} (h : keepsB r a = true) : Keeps r a := by
  unfold keepsB at h
  unfold Keeps
  split at h
  · simp only [Bool.and_eq_true] at h
    refine ⟨fun call u he => ?_, fun call p w he hp => ?_⟩
    · rw [he] at h; simpa using h.1
    · rw [he] at h; dsimp only at h; rw [hp] at h; simpa using h.2
  · simpa using h
  · simpa using h
  · simpa using h
  · simpa using h
  · exact h
  · simpa using h
  · trivial

/-- Run steps that all satisfy `Keeps`. -/
def runK (n : Nat) (r : R) : List RAct → Option R
  | [] => some r
  | a :: as => if keepsB r a then (rstep n r a).bind fun r => runK n r as else none

theorem reach_runK {n} : ∀ {as r r'}, Rc.Reach n Keeps r → runK n r as = some r' → Rc.Reach n Keeps r'
  | [], r, r', hi, h => by cases h; exact hi
  | a :: as, r, r', hi, h => by
    simp only [runK] at h
    split at h
    · rename_i hk
      obtain ⟨r1, h1, h2⟩ := Option.bind_eq_some_iff.1 h
      exact reach_runK (.step hi (keeps_of hk) h1) h2
    · cases h

/-- A socket is registered, polled, and deleted; the next `wait` receives the end of its operation. -/
def life : List RAct := addSock ++ waitUpd none ++ waitEnd ++ del true ++
  [.act (.complete 1 .cancelled), .act (.waitBegin true 1024), .act (.wait none), .act (.wait none), .act (.wait none), .act .get,
   .act (.wait none), .act (.wait none), .act (.decide true), .act (.wait none)]

-- the hypotheses of `freed_iff_unneeded_partial` can be met, with a packet that was freed and another that is there
example : ∃ r, Rc.Reach 1 Keeps r ∧ r.s.phase = .idle ∧ r.h.rc 1 = 0 ∧ r.s.c.next = 3 ∧ r.h.rc 2 = 1 := by
  have h : (runK 1 Rc.init (life ++ [.act (.newPacket ev)])).map (fun r => decide (r.s.phase = .idle) && (r.h.rc 1 == 0) && (r.s.c.next == 3) && (r.h.rc 2 == 1)) =
    some true := by decide +kernel
  obtain ⟨r, hr, h2⟩ := Option.map_eq_some_iff.1 h
  simp only [Bool.and_eq_true, decide_eq_true_eq, beq_iff_eq] at h2
  exact ⟨r, reach_runK .init hr, h2.1.1.1, h2.1.1.2, h2.1.2, h2.2⟩

-- before that, the packet of the deleted socket is still there: the kernel uses it
example : (runK 1 Rc.init (addSock ++ waitUpd none ++ waitEnd ++ del true)).map (fun r => r.h.rc 1) = some 1 := by decide +kernel

-- the hypotheses of `nothing_left_after_drop_partial`: the poller is dropped after that, with a packet in the hands of the user
example : ∃ r, Rc.Reach 1 Keeps r ∧ r.alive = false ∧ r.s.cb = [] ∧ r.s.cbPost = [] ∧ r.h.rc 0 = 0 ∧ r.h.rc 1 = 0 ∧ r.h.rc 2 = 1 := by
  have h : (runK 1 Rc.init (life ++ [.act (.newPacket ev), .dropPoller])).map (fun r => !r.alive && r.s.cb.isEmpty && r.s.cbPost.isEmpty &&
    (r.h.rc 0 == 0) && (r.h.rc 1 == 0) && (r.h.rc 2 == 1)) = some true := by decide +kernel
  obtain ⟨r, hr, h2⟩ := Option.map_eq_some_iff.1 h
  simp only [Bool.and_eq_true, Bool.not_eq_true', List.isEmpty_iff, beq_iff_eq] at h2
  exact ⟨r, reach_runK .init hr, h2.1.1.1.1.1, h2.1.1.1.1.2, h2.1.1.1.2, h2.1.1.2, h2.1.2, h2.2⟩

end Polling.C48
