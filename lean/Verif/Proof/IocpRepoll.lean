import Verif.Proof.IocpReg
import Verif.Proof.IocpClose
import Verif.Proof.IocpOwn
import Verif.Proof.FlagLemmas
import Verif.Spec.IocpPolls

/-! When the OS is asked again about a socket. -/

namespace Polling.IocpM
open Iocp IocpSpec

/-- A registration of a socket asks for reading or writing. -/
def asks : Call → Prop
  | .add true _ ev _ | .modify true _ ev _ => ev.readable = true ∨ ev.writable = true
  | _ => True

/-- Registrations of sockets ask for reading or writing, and operations complete only because of some condition, or because they were
cancelled. -/
def Asking : S → Act → Prop
  | _, .call _ call => asks call
  | _, .complete _ (.ok n events) => 1 ≤ n ∧ events ≠ 0#32
  | _, .complete _ .error => False
  | _, _ => True

theorem afd_bits (r w e : Bool) : ∀ i, i < 32 → (propsToAfdMask r w e).getLsbD i =
    (((e || r || w) && decide (i = 4 ∨ i = 8)) || (r && decide (i = 0 ∨ i = 1 ∨ i = 3 ∨ i = 7)) || (w && decide (i = 2))) := by
  revert r w e; decide +kernel

/-- Conditions that were asked for, by an interest with a direction, make an event. -/
theorem asked_shows {i : Event EventExtra} {err e} (hi : i.readable = true ∨ i.writable = true) (he : e ≠ 0#32)
    (hs : e &&& ~~~(eventToAfdMask i err) = 0#32) :
    ((afdMaskToEvent e).1 && i.readable || (afdMaskToEvent e).2 && i.writable || intersects e i.extra.flags) = true := by
  obtain ⟨j, hj, hb⟩ := (bv_ne_zero_iff e).1 he
  have hm : (eventToAfdMask i err).getLsbD j = true := by
    have := congrArg (fun x => BitVec.getLsbD x j) hs
    simp only [BitVec.getLsbD_and, BitVec.getLsbD_not, hb, hj] at this
    simpa using this
  unfold eventToAfdMask at hm
  rw [BitVec.getLsbD_or, afd_bits _ _ _ j hj] at hm
  have h1 := intersects_mask e (RECEIVE ||| ACCEPT ||| DISCONNECT ||| RECEIVE_EXPEDITED) (fun i => i = 0 ∨ i = 1 ∨ i = 3 ∨ i = 7) (by decide)
  have h2 := intersects_mask e (ABORT ||| CONNECT_FAIL) (fun i => i = 4 ∨ i = 8) (by decide)
  have h3 := intersects_mask e SEND (fun i => i = 2) (by decide)
  have h4 := intersects_iff e i.extra.flags
  have hx : i.extra.flags.getLsbD j = true → intersects e i.extra.flags = true := fun h => h4.2 ⟨j, hj, hb, h⟩
  by_cases hab : intersects e (ABORT ||| CONNECT_FAIL) = true
  · unfold afdMaskToEvent; rw [if_pos hab]
    rcases hi with h | h <;> simp [h]
  · have hn : ¬ (j = 4 ∨ j = 8) := fun h => hab (h2.2 ⟨j, h, hb⟩)
    unfold afdMaskToEvent; rw [if_neg hab]
    simp only [Bool.or_eq_true, Bool.and_eq_true, decide_eq_true_eq] at hm ⊢
    rcases hm with ((⟨_, h⟩ | ⟨hr, h⟩) | ⟨hw, h⟩) | h
    · exact absurd h hn
    · exact .inl (.inl ⟨h1.2 ⟨j, h, hb⟩, hr⟩)
    · exact .inl (.inr ⟨h3.2 ⟨j, h, hb⟩, hw⟩)
    · exact .inr (hx h)

/-- The operation will lead to an event, or not complete. -/
def opGood (flags : Mask) : Op → Prop
  | .none => True
  | .inFlight mask cancelling => mask = flags ∧ cancelling = false
  | .done (.ok n events) => 1 ≤ n ∧ events ≠ 0#32 ∧ events &&& ~~~flags = 0#32
  | .done _ => False

/-- The OS will not be asked again unless an event is found. -/
def Settled (s : Sock) : Prop := s.waitingOnDelete = true ∨ s.status = .polling s.mask ∧ opGood s.mask s.op

/-- Polls are paid for. -/
def Paid (polls paid : Nat) : Pkt → Prop
  | .socket s => (s.interest.readable = true ∨ s.interest.writable = true ∨ s.mask = 0#32) ∧ (s.status = .idle → s.op = .none) ∧
      polls ≤ paid ∧ (Settled s ∨ polls + 1 ≤ paid)
  | _ => polls = 0

theorem paid_mono {n m m' x} (h : Paid n m x) (hm : m ≤ m') : Paid n m' x := by
  cases x with
  | socket s =>
    obtain ⟨h1, h2, h3, h4⟩ := h
    exact ⟨h1, h2, by omega, h4.imp id (by omega)⟩
  | _ => exact h

/-- `update` -/
theorem paid_update {fault c q n m} (h : Paid n m (c.pk q)) :
    Paid (n + (match (update fault c q).2.2 with | some _ => 1 | none => 0)) m ((update fault c q).2.1.pk q) := by
  unfold update
  cases hk : c.pk q with
  | socket s =>
    rw [hk] at h
    obtain ⟨h1, h2, h3, h4⟩ := h
    dsimp only
    rw [setPk_self]
    have keep : Paid (n + 0) m (.socket s) := ⟨h1, h2, h3, h4⟩
    unfold updateSock
    by_cases hd : s.waitingOnDelete = true
    · rw [if_pos hd]; exact keep
    rw [if_neg hd]
    cases hst : s.status with
    | polling flags =>
      dsimp only
      by_cases hm : s.mask ≠ flags
      · rw [if_pos hm]
        have hns : ¬ Settled s := by
          rintro (h | ⟨h, _⟩)
          · exact hd h
          · rw [hst] at h; injection h with h; exact hm h.symm
        have hb : n + 1 ≤ m := h4.resolve_left hns
        unfold cancel
        cases fault with
        | some e => exact ⟨h1, h2, h3, .inr hb⟩
        | none => exact ⟨h1, nofun, h3, .inr hb⟩
      · rw [if_neg hm]; exact keep
    | cancelled => exact keep
    | idle =>
      dsimp only
      have hns : ¬ Settled s := by
        rintro (h | ⟨h, _⟩)
        · exact hd h
        · rw [hst] at h; cases h
      have hb : n + 1 ≤ m := h4.resolve_left hns
      have hop := h2 hst
      unfold startPoll
      dsimp only
      by_cases hu : s.inUse = true
      · rw [if_pos hu]
        exact ⟨h1, nofun, h3, .inr hb⟩
      · rw [if_neg hu]
        cases fault with
        | none => exact ⟨h1, nofun, hb, .inl (.inr ⟨rfl, rfl, rfl⟩)⟩
        | some e =>
          by_cases ht : tolerated e = true
          · simp only [if_pos ht]
            exact ⟨h1, nofun, h3, .inr hb⟩
          · simp only [if_neg ht]
            exact ⟨h1, fun _ => hop, h3, .inr hb⟩
  | waitable w => rw [hk] at h; dsimp only; rw [setPk_self]; exact h
  | free => rw [hk] at h; dsimp only; rw [hk]; exact h
  | custom ev => rw [hk] at h; dsimp only; rw [hk]; exact h
  | wakeup => rw [hk] at h; dsimp only; rw [hk]; exact h

theorem update_other {fault c q p} (h : p ≠ q) : (update fault c q).2.1.pk p = c.pk p := by
  unfold update
  split
  · dsimp only; rw [setPk_other _ _ h]
  · dsimp only; rw [setPk_other _ _ h]
  · rfl

theorem paid_setEvents {c q ev mode n m} (h : Paid n m (c.pk q)) (hk : ∀ s, c.pk q = .socket s → ev.readable = true ∨ ev.writable = true) :
    Paid n (m + 1) ((setEvents c q ev mode).2.pk q) := by
  unfold setEvents
  cases hp : c.pk q with
  | socket s =>
    rw [hp] at h
    obtain ⟨h1, h2, h3, h4⟩ := h
    dsimp only
    rw [setPk_self]
    exact ⟨(hk s hp).imp id .inl, h2, by omega, .inr (by omega)⟩
  | waitable w => rw [hp] at h; dsimp only; rw [setPk_self]; exact h
  | free => rw [hp] at h; dsimp only; rw [hp]; exact h
  | custom ev => rw [hp] at h; dsimp only; rw [hp]; exact h
  | wakeup => rw [hp] at h; dsimp only; rw [hp]; exact h

theorem setEvents_other {c q ev mode p} (h : p ≠ q) : (setEvents c q ev mode).2.pk p = c.pk p := by
  unfold setEvents
  split
  · dsimp only; rw [setPk_other _ _ h]
  · dsimp only; rw [setPk_other _ _ h]
  · rfl

theorem paid_delete {fault c q n m} (h : Paid n m (c.pk q)) : Paid n m ((beginDelete fault c q).2.pk q) := by
  unfold beginDelete
  cases hp : c.pk q with
  | socket s =>
    rw [hp] at h
    obtain ⟨h1, h2, h3, h4⟩ := h
    dsimp only
    by_cases hd : s.waitingOnDelete = true
    · rw [if_pos hd, hp]; exact ⟨h1, h2, h3, h4⟩
    rw [if_neg hd]
    cases hst : s.status with
    | polling flags =>
      dsimp only
      unfold cancel
      cases fault with
      | some e => dsimp only; rw [setPk_self]; exact ⟨h1, nofun, h3, .inl (.inl rfl)⟩
      | none => dsimp only; rw [setPk_self]; exact ⟨h1, nofun, h3, .inl (.inl rfl)⟩
    | _ => dsimp only; rw [setPk_self]; exact ⟨h1, by rw [hst] at h2; exact h2, h3, .inl (.inl rfl)⟩
  | waitable w => rw [hp] at h; dsimp only; rw [setPk_self]; exact h
  | free => rw [hp] at h; dsimp only; rw [hp]; exact h
  | custom ev => rw [hp] at h; dsimp only; rw [hp]; exact h
  | wakeup => rw [hp] at h; dsimp only; rw [hp]; exact h

theorem delete_other {fault c q p} (h : p ≠ q) : (beginDelete fault c q).2.pk p = c.pk p := by
  unfold beginDelete
  split
  · split
    · rfl
    · dsimp only; split <;> (dsimp only; rw [setPk_other _ _ h])
  · dsimp only; rw [setPk_other _ _ h]
  · rfl

theorem paid_drop {c q n m} (h : Paid n m (c.pk q)) : Paid n m ((dropEntry c q).pk q) := by
  unfold dropEntry
  cases hp : c.pk q with
  | socket s =>
    rw [hp] at h
    obtain ⟨h1, h2, h3, h4⟩ := h
    dsimp only
    rw [setPk_self]
    refine ⟨h1, fun _ => rfl, h3, h4.imp ?_ id⟩
    rintro (h | ⟨h, _⟩)
    · exact .inl h
    · exact .inr ⟨h, trivial⟩
  | waitable w => rw [hp] at h; dsimp only; rw [hp]; exact h
  | free => rw [hp] at h; dsimp only; rw [hp]; exact h
  | custom ev => rw [hp] at h; dsimp only; rw [hp]; exact h
  | wakeup => rw [hp] at h; dsimp only; rw [hp]; exact h

theorem drop_other {c q p} (h : p ≠ q) : (dropEntry c q).pk p = c.pk p := by
  unfold dropEntry
  split
  · rw [setPk_other _ _ h]
  · rfl

theorem mask_none (k) : eventToAfdMask (Event.none k) false = 0#32 := by
  have h : (Event.none k : Event EventExtra) = ⟨k, false, false, ⟨0#32⟩⟩ := rfl
  rw [h]; unfold eventToAfdMask; dsimp only; decide

/-- Filtering keeps what is paid for. -/
theorem paid_filter {s : Sock} {ev n m} (h : s.interest.readable = true ∨ s.interest.writable = true ∨ s.mask = 0#32) (hb : n + 1 ≤ m) :
    Paid n m (.socket (filterEvent { s with status := .idle, inUse := false, op := .none } ev).1) := by
  unfold filterEvent
  dsimp only
  split
  · split
    · exact ⟨.inr (.inr (mask_none _)), fun _ => rfl, by omega, .inr hb⟩
    · exact ⟨h, fun _ => rfl, by omega, .inr hb⟩
  · exact ⟨h, fun _ => rfl, by omega, .inr hb⟩

/-- Completions: the only ones without an event were paid for. -/
theorem paid_feed {c q n m} (h : Paid n m (c.pk q)) (hcl : (feed c q).1 ≠ .localClose) :
    Paid n (m + (match (feed c q).1 with | .update _ _ (some _) => 1 | _ => 0)) ((feed c q).2.pk q) := by
  unfold feed at hcl ⊢
  cases hp : c.pk q with
  | socket s =>
    rw [hp] at h hcl
    obtain ⟨h1, h2, h3, h4⟩ := h
    dsimp only at hcl ⊢
    cases hop : s.op with
    | none => dsimp only; rw [hp]; exact ⟨h1, h2, h3, h4⟩
    | inFlight _ _ => dsimp only; rw [hp]; exact ⟨h1, h2, h3, h4⟩
    | done r =>
      dsimp only
      by_cases hd : s.waitingOnDelete = true
      · rw [if_pos hd]; dsimp only; rw [setPk_self]
        exact ⟨h1, fun _ => rfl, h3, .inl (.inl hd)⟩
      rw [if_neg hd]
      have hset : Settled s → ∃ k events, r = .ok k events ∧ 1 ≤ k ∧ events ≠ 0#32 ∧ events &&& ~~~s.mask = 0#32 := by
        rintro (h | ⟨_, h⟩)
        · exact absurd h hd
        · rw [hop] at h
          cases r with
          | ok k events => exact ⟨k, events, rfl, h⟩
          | _ => exact h.elim
      by_cases hl : isLocalClose r = true
      · rw [hop] at hcl; dsimp only at hcl; rw [if_neg hd, if_pos hl] at hcl; exact absurd rfl hcl
      rw [if_neg hl]
      rw [setPk_self]
      cases hf : (filterEvent { s with status := .idle, inUse := false, op := .none } (rawEvent s.interest.key r)).2 with
      | some ev =>
        exact paid_filter h1 (show n + 1 ≤ m + 1 by omega)
      | none =>
        have hb : n + 1 ≤ m := by
          refine h4.resolve_left fun h4 => ?_
          obtain ⟨k, events, rfl, hk, he, hsub⟩ := hset h4
          have hi : s.interest.readable = true ∨ s.interest.writable = true := by
            rcases h1 with h | h | h
            · exact .inl h
            · exact .inr h
            · exfalso; rw [h, show ~~~(0#32 : Mask) = BitVec.allOnes 32 from rfl, BitVec.and_allOnes] at hsub; exact he hsub
          have := asked_shows hi he hsub
          unfold filterEvent at hf
          simp only [rawEvent, if_pos (show k ≥ 1 from hk), this] at hf
          cases hf
        exact paid_filter h1 hb
  | waitable w => rw [hp] at h; dsimp only; rw [setPk_self]; exact h
  | free => rw [hp] at h; dsimp only; rw [hp]; exact h
  | custom ev => rw [hp] at h; dsimp only; rw [hp]; exact h
  | wakeup => rw [hp] at h; dsimp only; rw [hp]; exact h

theorem feed_other {c q p} (h : p ≠ q) : (feed c q).2.pk p = c.pk p := by
  unfold feed
  split
  · rfl
  · rfl
  · dsimp only; rw [setPk_other _ _ h]
  · split
    · dsimp only
      split
      · rw [setPk_other _ _ h]
      · split
        · rw [setPk_other _ _ h]
        · rw [setPk_other _ _ h]
    · rfl
  · rfl

/-- Effects of a step, as far as polls are concerned. -/
inductive Pay : Core → IObs → Core → Prop
  | same {c c' : Core} {o} : c'.pk = c.pk → (∀ p m, o ≠ .polled p m) → Pay c o c'
  | insert {c c' : Core} {o k fd ev mode} : c'.pk = (fun y => if y = c.next then newPkt k fd ev mode else c.pk y) →
      (∀ p m, o ≠ .polled p m) → asks (.add k fd ev mode) → Pay c o c'
  | custom {c c' : Core} {o ev} : c'.pk = (fun y => if y = c.next then .custom ev else c.pk y) → (∀ p m, o ≠ .polled p m) → Pay c o c'
  | set {c : Core} {t k fd p ev mode} : asks (.modify k fd ev mode) → (∀ s, c.pk p = .socket s → k = true) →
      Pay c (.changed t k fd p ev mode) (setEvents c p ev mode).2
  | del {c : Core} {p fault o} : (∀ p m, o ≠ .polled p m) → Pay c o (beginDelete fault c p).2
  | update {c : Core} {p fault} : Pay c (updateObs p (update fault c p).2.2) (update fault c p).2.1
  | feed {c : Core} {p o} : (∀ p m, o ≠ .polled p m) → (∀ k fd ev, (feed c p).1 = .update k fd (some ev) → o = .deliver k fd p ev) →
      (feed c p).1 ≠ .localClose → Pay c o (feed c p).2
  | drop {c : Core} {p o} : (∀ p m, o ≠ .polled p m) → Pay c o (dropEntry c p)
  | complete {c c' : Core} {p k mask cancelling r o} : c.pk p = .socket k → k.op = .inFlight mask cancelling →
      possible mask cancelling r = true → (∀ n events, r = .ok n events → 1 ≤ n ∧ events ≠ 0#32) → r ≠ .error →
      c'.pk = (setPk c p (.socket { k with op := .done r })).pk → (∀ p m, o ≠ .polled p m) → Pay c o c'
  | wtb {c c' : Core} {p w w' o} : c.pk p = .waitable w → c'.pk = (setPk c p (.waitable w')).pk → (∀ p m, o ≠ .polled p m) → Pay c o c'

/-- What is paid for in a trace. -/
def paidFor (p : PId) (tr : List IObs) : Nat := 1 + changes p tr + deliveries p tr

theorem paidFor_mono (p o tr) : paidFor p tr ≤ paidFor p (o :: tr) := by
  unfold paidFor changes deliveries
  rw [List.countP_cons, List.countP_cons]; omega

theorem polls_same {p o tr} (h : ∀ p m, o ≠ .polled p m) : polls p (o :: tr) = polls p tr := by
  unfold polls
  rw [List.countP_cons]
  cases o with
  | polled q m => exact absurd rfl (h q m)
  | _ => rfl

theorem paid_pay {c o c' tr} (hlow : ∀ p, c.next ≤ p → c.pk p = .free) (h : ∀ p, Paid (polls p tr) (paidFor p tr) (c.pk p)) (he : Pay c o c') :
    ∀ p, Paid (polls p (o :: tr)) (paidFor p (o :: tr)) (c'.pk p) := by
  intro x
  have hx := h x
  have keep : (∀ p m, o ≠ .polled p m) → c'.pk x = c.pk x → Paid (polls x (o :: tr)) (paidFor x (o :: tr)) (c'.pk x) := by
    intro hn e
    rw [e, polls_same hn]
    exact paid_mono hx (paidFor_mono ..)
  have hnext : polls c.next tr = 0 := by
    have := h c.next
    rw [hlow _ (Nat.le_refl _)] at this; exact this
  cases he with
  | same hpk hn => exact keep hn (by rw [hpk])
  | @insert _ _ k fd ev mode hpk hn hask =>
    by_cases e : x = c.next
    · subst e
      rw [hpk, polls_same hn, hnext]
      simp only [if_true]
      have : 1 ≤ paidFor c.next (o :: tr) := by unfold paidFor; omega
      unfold newPkt
      cases k with
      | true => exact ⟨hask.imp id .inl, fun _ => rfl, by omega, .inr (by omega)⟩
      | false => exact rfl
    · exact keep hn (by rw [hpk]; simp [e])
  | @custom _ _ ev hpk hn =>
    by_cases e : x = c.next
    · subst e
      rw [hpk, polls_same hn, hnext]
      simp only [if_true]
      exact rfl
    · exact keep hn (by rw [hpk]; simp [e])
  | @set t k fd p ev mode hask hk =>
    have hn : ∀ q m, IObs.changed t k fd p ev mode ≠ .polled q m := nofun
    by_cases e : x = p
    · subst e
      rw [polls_same hn]
      have hp : paidFor x (.changed t k fd x ev mode :: tr) = paidFor x tr + 1 := by
        unfold paidFor changes deliveries
        rw [List.countP_cons, List.countP_cons]; simp; omega
      rw [hp]
      refine paid_setEvents hx fun s hs => ?_
      have := hk s hs
      subst this
      exact hask
    · exact keep hn (setEvents_other e)
  | @del p fault _ hn =>
    by_cases e : x = p
    · subst e; rw [polls_same hn]; exact paid_mono (paid_delete hx) (paidFor_mono ..)
    · exact keep hn (delete_other e)
  | @update p fault =>
    by_cases e : x = p
    · subst e
      have := paid_update (fault := fault) hx
      refine paid_mono ?_ (paidFor_mono ..)
      cases hm : (update fault c x).2.2 with
      | none => rw [hm] at this; rw [polls_same (by simp [updateObs])]; exact this
      | some m =>
        rw [hm] at this
        have hp : polls x (updateObs x (some m) :: tr) = polls x tr + 1 := by
          unfold polls; rw [List.countP_cons]; simp [updateObs]
        rw [hp]; exact this
    · have hp : polls x (updateObs p (update fault c p).2.2 :: tr) = polls x tr := by
        cases (update fault c p).2.2 with
        | none => exact polls_same (by simp [updateObs])
        | some m =>
          unfold polls; rw [List.countP_cons]
          simp [updateObs, Ne.symm e]
      rw [hp, update_other e]
      exact paid_mono hx (paidFor_mono ..)
  | @feed p _ hn hd hcl =>
    by_cases e : x = p
    · subst e
      rw [polls_same hn]
      refine paid_mono (paid_feed hx hcl) ?_
      split
      · rename_i k fd ev hf
        have := hd k fd ev hf
        subst this
        unfold paidFor changes deliveries
        rw [List.countP_cons, List.countP_cons]; simp; omega
      · exact paidFor_mono ..
    · exact keep hn (feed_other e)
  | @drop p _ hn =>
    by_cases e : x = p
    · subst e; rw [polls_same hn]; exact paid_mono (paid_drop hx) (paidFor_mono ..)
    · exact keep hn (drop_other e)
  | @complete _ p k mask cancelling r _ hk hop hr hok herr hpk hn =>
    by_cases e : x = p
    · subst e
      rw [polls_same hn, hpk, setPk_self]
      refine paid_mono ?_ (paidFor_mono ..)
      rw [hk] at hx
      obtain ⟨h1, h2, h3, h4⟩ := hx
      refine ⟨h1, ?_, h3, h4.imp ?_ id⟩
      · intro hi; rw [h2 hi] at hop; cases hop
      · rintro (h | ⟨hs, hg⟩)
        · exact .inl h
        · rw [hop] at hg
          obtain ⟨rfl, rfl⟩ := hg
          refine .inr ⟨hs, ?_⟩
          cases r with
          | ok n events =>
            obtain ⟨a, b⟩ := hok n events rfl
            exact ⟨a, b, by have h := hr; simp only [possible, beq_iff_eq] at h; exact h⟩
          | cancelled => cases hr
          | error => exact absurd rfl herr
    · exact keep hn (by rw [hpk, setPk_other _ _ e])
  | @wtb _ p w w' _ hw hpk hn =>
    by_cases e : x = p
    · subst e
      rw [polls_same hn, hpk, setPk_self]
      rw [hw] at hx; exact hx
    · exact keep hn (by rw [hpk, setPk_other _ _ e])

/-- Threads are in calls that ask. -/
def Threads (s : S) : Prop := ∀ t call, (s.pc t).call? = some call → asks call

theorem step_pay {threads P s tr a s' o} (h : Reach threads P s tr) (hb : Threads s) (ha : Asking s a)
    (hs : step threads s a = some (s', o)) : Pay s.c o s'.c := by
  have hu : ∀ fault u c' out o, ustep fault s.c u = (c', out, o) → Pay s.c o c' := by
    intro fault u c' out o h
    cases u with
    | load p => simp only [ustep] at h; cases h; exact .same rfl nofun
    | run p => simp only [ustep] at h; cases h; exact .update
    | push p =>
      simp only [ustep] at h
      split at h <;> (cases h; exact .same rfl nofun)
    | pop p n =>
      simp only [ustep] at h
      split at h <;> (cases h; exact .same rfl nofun)
    | drain p n q => simp only [ustep] at h; cases h; exact .update
  cases a with
  | go t fault =>
    simp only [step, goCall] at hs
    split at hs
    · cases hs
    split at hs
    · split at hs <;> (cases hs; exact .same rfl nofun)
    · rename_i call hpc
      have hcb := hb t call (by rw [hpc]; rfl)
      split at hs
      · split at hs
        · cases hs; exact .same rfl nofun
        · cases hs; exact .insert rfl nofun hcb
      · split at hs <;> (cases hs; exact .same rfl nofun)
      · split at hs <;> (cases hs; exact .same rfl nofun)
    · rename_i call p hpc
      split at hs
      · rename_i k fd ev mode
        cases hs
        refine .set (hb t _ (by rw [hpc]; rfl)) ?_
        intro k' hk'
        have := reach_own h t _ p (by rw [hpc]; rfl)
        rw [hk'] at this
        simp only [ident, callSock, Option.some.injEq, Prod.mk.injEq] at this
        exact this.1.symm
      · cases hs
    · cases hs; exact .del nofun
    · split at hs
      · rename_i h; cases hs; exact hu _ _ _ _ _ h
      · rename_i h; cases hs; exact hu _ _ _ _ _ h
    · cases hs; exact .same rfl nofun
    · cases hs
  | newPacket ev =>
    simp only [step] at hs
    split at hs
    · cases hs
    · cases hs; exact .custom rfl nofun
  | wait fault =>
    simp only [step, goWait] at hs
    split at hs
    · cases hs; exact .same rfl nofun
    · cases hs; exact .same rfl nofun
    · split at hs <;> (cases hs; exact .same rfl nofun)
    · rename_i q _
      have e : ∀ r c' m, update fault s.c q = (r, c', m) → Pay s.c (updateObs q m) c' := by
        intro r c' m h
        have := Pay.update (c := s.c) (p := q) (fault := fault)
        rw [h] at this; exact this
      split at hs <;> (rename_i h; cases hs; exact e _ _ _ h)
    · cases hs; exact .same rfl nofun
    · unfold waitFail at hs
      split at hs <;> (cases hs; exact .same rfl nofun)
    · unfold waitFail at hs
      split at hs <;> (cases hs; exact .same rfl nofun)
    · cases hs; exact .drop nofun
    · rename_i p batch _
      have hcl := feed_not_stuck h p
      split at hs
      · rename_i h; cases hs
        have := Pay.feed (c := s.c) (p := p) (o := .tau) nofun (by rw [h]; nofun) hcl
        rw [h] at this; exact this
      · rename_i h; cases hs
        have := Pay.feed (c := s.c) (p := p) (o := .tau) nofun (by rw [h]; nofun) hcl
        rw [h] at this; exact this
      · rename_i ev _ h; cases hs
        have := Pay.feed (c := s.c) (p := p) (o := .received p ev) nofun (by rw [h]; nofun) hcl
        rw [h] at this; exact this
      · rename_i h; rw [h] at hcl; exact absurd rfl hcl
      · rename_i k fd ev c h; cases hs
        cases ev with
        | none =>
          have := Pay.feed (c := s.c) (p := p) (o := .tau) nofun (by rw [h]; intro k' fd' ev' he; cases he) hcl
          rw [h] at this; exact this
        | some ev =>
          have := Pay.feed (c := s.c) (p := p) (o := .deliver k fd p ev) nofun (by rw [h]; intro k' fd' ev' he; cases he; rfl) hcl
          rw [h] at this; exact this
    · split at hs
      · rename_i h; cases hs; exact hu _ _ _ _ _ h
      · rename_i h; cases hs; exact hu _ _ _ _ _ h
      · rename_i h; cases hs; exact hu _ _ _ _ _ h
    · cases hs; exact .same rfl nofun
    · cases hs
  | complete p r =>
    simp only [step] at hs
    split at hs
    · rename_i k hk
      split at hs
      · rename_i mask cancelling hop
        split at hs
        · rename_i hr; cases hs
          refine .complete hk hop hr ?_ ?_ rfl nofun
          · intro n events e; subst e; exact ha
          · intro e; subst e; exact ha
        · cases hs
      · cases hs
    · cases hs
  | fire p =>
    simp only [step] at hs
    split at hs
    · rename_i w hw
      split at hs
      · cases hs; exact .wtb hw rfl nofun
      · cases hs
    · cases hs
  | callback p =>
    simp only [step] at hs
    split at hs
    · rename_i w hw
      split at hs
      · cases hs; exact .wtb hw rfl nofun
      · cases hs
    · cases hs
  | callbackPost p fault =>
    simp only [step] at hs
    split at hs
    · cases hs
      refine .same ?_ nofun
      dsimp only; split <;> rfl
    · cases hs
  | _ =>
    simp only [step] at hs
    repeat' split at hs
    all_goals cases hs
    all_goals exact .same rfl nofun

theorem step_threads {threads s a s' o} (hb : Threads s) (ha : Asking s a) (hs : step threads s a = some (s', o)) : Threads s' := by
  intro t call hc
  have key : ∀ u x, s'.pc = upd s.pc u x → (x.call? = none ∨ x.call? = (s.pc u).call? ∨ ∃ c, x.call? = some c ∧ asks c) → asks call := by
    intro u x h hx
    rw [h] at hc
    by_cases e : t = u
    · subst e
      rw [upd_self] at hc
      rcases hx with hx | hx | ⟨c, hx, hask⟩
      · rw [hx] at hc; cases hc
      · rw [hx] at hc; exact hb t call hc
      · rw [hx] at hc; cases hc; exact hask
    · rw [upd_other _ _ e] at hc; exact hb t call hc
  cases a with
  | call u d =>
    simp only [step] at hs
    split at hs
    · cases hs
    split at hs
    · split at hs
      · cases hs
      split at hs
      · cases hs; exact hb t call hc
      split at hs
      · cases hs; exact hb t call hc
      cases hs
      exact key u _ rfl (.inr (.inr ⟨d, by split <;> rfl, ha⟩))
    · cases hs
  | go u fault =>
    simp only [step, goCall] at hs
    split at hs
    · cases hs
    repeat' split at hs
    all_goals cases hs
    all_goals refine key u _ rfl ?_
    all_goals first
      | exact .inl rfl
      | (refine .inr (.inl ?_); simp_all [Pc.call?]; done)
      | (refine .inr (.inl ?_); split <;> simp_all [Pc.call?]; done)
  | notifyCas u =>
    simp only [step] at hs
    repeat' split at hs
    all_goals cases hs
    all_goals first | exact hb t call hc | exact key u _ rfl (.inl rfl)
  | notifyPost u fault =>
    simp only [step] at hs
    repeat' split at hs
    all_goals cases hs
    all_goals first | exact hb t call hc | exact key u _ rfl (.inl rfl)
  | wait fault =>
    simp only [step, goWait, waitFail] at hs
    repeat' split at hs
    all_goals cases hs
    all_goals exact hb t call hc
  | _ =>
    simp only [step] at hs
    repeat' split at hs
    all_goals cases hs
    all_goals exact hb t call hc

/-- All polls are paid for. -/
theorem reach_paid {threads s tr} (h : Reach threads Asking s tr) :
    Threads s ∧ ∀ p, Paid (polls p tr) (paidFor p tr) (s.c.pk p) := by
  induction h with
  | init =>
    refine ⟨fun t call h => (by cases h), fun p => ?_⟩
    have : polls p [] = 0 := rfl
    rw [this]
    unfold init; dsimp only
    split <;> exact rfl
  | step hr ha hs ih => exact ⟨step_threads ih.1 ha hs, paid_pay (reach_ti hr).low ih.2 (step_pay hr ih.1 ha hs)⟩

/-- The number of polls of any registration. -/
theorem reach_polls {threads s tr} (h : Reach threads Asking s tr) (p : PId) : polls p tr ≤ 1 + changes p tr + deliveries p tr := by
  have := (reach_paid h).2 p
  cases hp : s.c.pk p with
  | socket k => rw [hp] at this; exact this.2.2.1
  | _ => rw [hp] at this; rw [show polls p tr = 0 from this]; omega

end Polling.IocpM
