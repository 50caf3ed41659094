import Verif.Proof.IocpEff

/-! The packets of the IOCP model against the history. -/

namespace Polling.IocpM
open Iocp IocpSpec

/-- The interest a packet has for a registration of the history. -/
def interestOf (r : Reg) : Event EventExtra := if r.fired = true ∧ r.mode = .oneshot then Event.none r.ev.key else r.ev

/-- A packet is what the history says. -/
def Agrees (r : Option Reg) : Pkt → Prop
  | .socket s => ∃ q, r = some q ∧ q.sock = true ∧ q.fd = s.socket ∧ s.mode = q.mode ∧ edge q.mode = false ∧
      (q.ended = true → s.waitingOnDelete = true) ∧ s.interest = interestOf q ∧
      s.interestError = !(q.fired && decide (q.mode = .oneshot))
  | .waitable w => ∃ q, r = some q ∧ q.sock = false ∧ q.fd = w.handle ∧ w.mode = q.mode ∧ edge q.mode = false ∧
      w.interest = interestOf q
  | _ => r = none

structure TI (tr : List IObs) (c : Core) : Prop where
  low : ∀ p, c.next ≤ p → c.pk p = .free
  wake : c.pk NOTIFIER = .wakeup
  pos : NOTIFIER < c.next
  tab : ∀ k fd, registered tr k fd = c.table k fd
  ids : ∀ k fd p, c.table k fd = some p → ident (c.pk p) = some (k, fd)
  regs : ∀ p, Agrees (reg tr p) (c.pk p)

theorem reg_quiet {o tr} (h : Quiet o) : reg (o :: tr) = reg tr := by
  funext p; cases o <;> first | rfl | exact absurd h id
theorem registered_quiet {o tr} (h : Quiet o) : registered (o :: tr) = registered tr := by
  funext k p; cases o <;> first | rfl | exact absurd h id

/-- A change of one packet that keeps the source. -/
theorem ti_one {tr tr' c c'} {p : PId} (h : TI tr c) (hn : c'.next = c.next) (ht : c'.table = c.table)
    (hpk : ∀ q, q ≠ p → c'.pk q = c.pk q) (hid : ident (c'.pk p) = ident (c.pk p)) (hfree : c.pk p = .free → c'.pk p = .free)
    (hwake : c.pk p = .wakeup → c'.pk p = .wakeup)
    (htab : registered tr' = registered tr) (hreg : ∀ q, q ≠ p → reg tr' q = reg tr q) (ha : Agrees (reg tr' p) (c'.pk p)) :
    TI tr' c' := by
  refine ⟨?_, ?_, ?_, ?_, ?_, ?_⟩
  · intro q hq
    rw [hn] at hq
    by_cases e : q = p
    · subst e; exact hfree (h.low q hq)
    · rw [hpk q e]; exact h.low q hq
  · by_cases e : NOTIFIER = p
    · subst e; exact hwake h.wake
    · rw [hpk _ e]; exact h.wake
  · rw [hn]; exact h.pos
  · intro k fd; rw [htab, ht]; exact h.tab k fd
  · intro k fd q hq
    rw [ht] at hq
    by_cases e : q = p
    · subst e; rw [hid]; exact h.ids k fd q hq
    · rw [hpk q e]; exact h.ids k fd q hq
  · intro q
    by_cases e : q = p
    · subst e; exact ha
    · rw [hreg q e, hpk q e]; exact h.regs q

theorem setPk_self (c : Core) (p x) : (setPk c p x).pk p = x := by simp [setPk]
theorem setPk_other (c : Core) {p q} (x) (h : q ≠ p) : (setPk c p x).pk q = c.pk q := by simp [setPk, h]

theorem cancel_frame (fault s) : (cancel fault s).2.socket = s.socket ∧ (cancel fault s).2.interest = s.interest ∧
    (cancel fault s).2.interestError = s.interestError ∧ (cancel fault s).2.mode = s.mode ∧
    (cancel fault s).2.waitingOnDelete = s.waitingOnDelete := by
  unfold cancel; split <;> exact ⟨rfl, rfl, rfl, rfl, rfl⟩

theorem updateSock_frame (fault s) : (updateSock fault s).2.1.socket = s.socket ∧ (updateSock fault s).2.1.interest = s.interest ∧
    (updateSock fault s).2.1.interestError = s.interestError ∧ (updateSock fault s).2.1.mode = s.mode ∧
    (updateSock fault s).2.1.waitingOnDelete = s.waitingOnDelete := by
  unfold updateSock startPoll
  have := cancel_frame fault s
  repeat' split
  all_goals first | exact ⟨rfl, rfl, rfl, rfl, rfl⟩ | (rename_i h; rw [h] at this; exact this) | exact this

theorem updateWtb_frame (fault w) : (updateWtb fault w).2.handle = w.handle ∧ (updateWtb fault w).2.interest = w.interest ∧
    (updateWtb fault w).2.mode = w.mode := by
  unfold updateWtb
  repeat' (first | split | exact ⟨rfl, rfl, rfl⟩)

theorem agrees_sock {r s s'} (h : Agrees r (.socket s)) (h1 : s'.socket = s.socket) (h2 : s'.interest = s.interest)
    (h3 : s'.interestError = s.interestError) (h4 : s'.mode = s.mode) (h5 : s.waitingOnDelete = true → s'.waitingOnDelete = true) :
    Agrees r (.socket s') := by
  obtain ⟨q, a, b, c, d, e, f, g, i⟩ := h
  exact ⟨q, a, b, by rw [h1]; exact c, by rw [h4]; exact d, e, fun he => h5 (f he), by rw [h2]; exact g, by rw [h3]; exact i⟩

theorem agrees_wtb {r w w'} (h : Agrees r (.waitable w)) (h1 : w'.handle = w.handle) (h2 : w'.interest = w.interest)
    (h3 : w'.mode = w.mode) : Agrees r (.waitable w') := by
  obtain ⟨q, a, b, c, d, e, f⟩ := h
  exact ⟨q, a, b, by rw [h1]; exact c, by rw [h3]; exact d, e, by rw [h2]; exact f⟩

/-- `update` of one packet. -/
theorem update_frame (fault c p) : (update fault c p).2.1.next = c.next ∧ (update fault c p).2.1.table = c.table ∧
    (update fault c p).2.1.pending = c.pending ∧ (update fault c p).2.1.polling = c.polling ∧ (update fault c p).2.1.port = c.port ∧
    ∀ q, q ≠ p → (update fault c p).2.1.pk q = c.pk q := by
  unfold update
  split
  · exact ⟨rfl, rfl, rfl, rfl, rfl, fun q h => setPk_other _ _ h⟩
  · exact ⟨rfl, rfl, rfl, rfl, rfl, fun q h => setPk_other _ _ h⟩
  · exact ⟨rfl, rfl, rfl, rfl, rfl, fun _ _ => rfl⟩

/-- What `update` does to the packet itself. -/
theorem update_pkt (fault c p) : (update fault c p).2.1.pk p =
    match c.pk p with
    | .socket s => .socket (updateSock fault s).2.1
    | .waitable w => .waitable (updateWtb fault w).2
    | x => x := by
  unfold update
  split
  · rename_i s h; rw [h]; simp [setPk]
  · rename_i w h; rw [h]; simp [setPk]
  · rename_i h1 h2
    split
    · rename_i s h; exact absurd h (h1 s)
    · rename_i s h; exact absurd h (h2 s)
    · rfl

theorem ti_update {tr tr' c} {fault p} (h : TI tr c) (h1 : registered tr' = registered tr) (h2 : reg tr' = reg tr) :
    TI tr' (update fault c p).2.1 := by
  have ⟨a, b, _, _, _, f⟩ := update_frame fault c p
  have e := update_pkt fault c p
  have hr := h.regs p
  refine ti_one (p := p) h a b f ?_ ?_ ?_ h1 (fun q _ => by rw [h2]) ?_
  · rw [e]; split <;> simp [*, ident, (updateSock_frame _ _).1, (updateWtb_frame _ _).1]
  · intro hf; rw [e, hf]
  · intro hf; rw [e, hf]
  · rw [e, h2]
    split
    · rename_i s hs; rw [hs] at hr
      have ⟨f1, f2, f3, f4, f5⟩ := updateSock_frame fault s
      exact agrees_sock hr f1 f2 f3 f4 (fun h => by rw [f5]; exact h)
    · rename_i w hs; rw [hs] at hr
      have ⟨f1, f2, f3⟩ := updateWtb_frame fault w
      exact agrees_wtb hr f1 f2 f3
    · exact hr

theorem dropEntry_frame (c p) : (dropEntry c p).next = c.next ∧ (dropEntry c p).table = c.table ∧ (dropEntry c p).pending = c.pending ∧
    (dropEntry c p).polling = c.polling ∧ (dropEntry c p).port = c.port ∧ ∀ q, q ≠ p → (dropEntry c p).pk q = c.pk q := by
  unfold dropEntry
  split
  · exact ⟨rfl, rfl, rfl, rfl, rfl, fun q h => setPk_other _ _ h⟩
  · exact ⟨rfl, rfl, rfl, rfl, rfl, fun _ _ => rfl⟩

theorem dropEntry_pkt (c p) : (dropEntry c p).pk p =
    match c.pk p with
    | .socket s => .socket { s with inUse := false, op := .none }
    | x => x := by
  unfold dropEntry
  split
  · rename_i s h; rw [h]; simp [setPk]
  · rename_i h1
    split
    · rename_i s h; exact absurd h (h1 s)
    · rfl

theorem ti_drop {tr c} (batch : List PId) (h : TI tr c) : TI tr (dropEntries c batch) := by
  unfold dropEntries
  induction batch generalizing c with
  | nil => exact h
  | cons p l ih =>
    rw [List.foldl_cons]
    apply ih
    have ⟨a, b, _, _, _, f⟩ := dropEntry_frame c p
    have e := dropEntry_pkt c p
    have hr := h.regs p
    refine ti_one (p := p) h a b f ?_ ?_ ?_ rfl (fun q _ => rfl) ?_
    · rw [e]; split <;> simp [*, ident]
    · intro hf; rw [e, hf]
    · intro hf; rw [e, hf]
    · rw [e]
      split
      · rename_i s hs; rw [hs] at hr
        exact agrees_sock hr rfl rfl rfl rfl id
      · exact hr

theorem interestOf_new (k fd ev mode b) : interestOf ⟨k, fd, ev, mode, false, b⟩ = ev := by simp [interestOf]

theorem beginDelete_frame (fault c p) : (beginDelete fault c p).2.next = c.next ∧ (beginDelete fault c p).2.table = c.table ∧
    (beginDelete fault c p).2.pending = c.pending ∧ (beginDelete fault c p).2.polling = c.polling ∧
    (beginDelete fault c p).2.port = c.port ∧ ∀ q, q ≠ p → (beginDelete fault c p).2.pk q = c.pk q := by
  unfold beginDelete
  dsimp only
  repeat' split
  all_goals first
    | exact ⟨rfl, rfl, rfl, rfl, rfl, fun _ _ => rfl⟩
    | exact ⟨rfl, rfl, rfl, rfl, rfl, fun q h => setPk_other _ _ h⟩

theorem feed_frame (c p) : (feed c p).2.next = c.next ∧ (feed c p).2.table = c.table ∧
    (feed c p).2.pending = c.pending ∧ (feed c p).2.polling = c.polling ∧
    (feed c p).2.port = c.port ∧ ∀ q, q ≠ p → (feed c p).2.pk q = c.pk q := by
  unfold feed
  dsimp only
  repeat' split
  all_goals first
    | exact ⟨rfl, rfl, rfl, rfl, rfl, fun _ _ => rfl⟩
    | exact ⟨rfl, rfl, rfl, rfl, rfl, fun q h => setPk_other _ _ h⟩

/-- The state a socket has when its completion is taken. -/
def Sock.taken (s : Sock) : Sock := { s with status := .idle, inUse := false, op := .none }

/-- What `feed_event` does, by the packet. -/
theorem feed_cases (c p) :
    (∃ s r, c.pk p = .socket s ∧ s.op = .done r ∧ s.waitingOnDelete = true ∧ feed c p = (.noEvent, setPk c p (.socket s.taken))) ∨
    (∃ s r, c.pk p = .socket s ∧ s.op = .done r ∧ s.waitingOnDelete = false ∧ isLocalClose r = true ∧
      feed c p = (.localClose, setPk c p (.socket s.taken))) ∨
    (∃ s r, c.pk p = .socket s ∧ s.op = .done r ∧ s.waitingOnDelete = false ∧ isLocalClose r = false ∧
      feed c p = (.update true s.socket (filterEvent s.taken (rawEvent s.interest.key r)).2,
        setPk c p (.socket (filterEvent s.taken (rawEvent s.interest.key r)).1))) ∨
    (∃ w, c.pk p = .waitable w ∧ feed c p = (.update false w.handle (some w.interest),
      setPk c p (.waitable (if w.mode = .oneshot then { w with interest := Event.none w.interest.key } else w)))) ∨
    (∃ ev, c.pk p = .custom ev ∧ feed c p = (.custom ev, c)) ∨
    (c.pk p = .wakeup ∧ feed c p = (.notified, c)) ∨
    (((∃ s, c.pk p = .socket s ∧ ∀ r, s.op ≠ .done r) ∨ c.pk p = .free) ∧ feed c p = (.noEvent, c)) := by
  unfold feed
  cases hp : c.pk p with
  | socket s =>
    dsimp only
    cases hop : s.op with
    | done r =>
      dsimp only
      by_cases hw : s.waitingOnDelete = true
      · exact .inl ⟨s, r, rfl, hop, hw, by rw [if_pos hw]; rfl⟩
      · rw [if_neg hw]
        have hw' : s.waitingOnDelete = false := by simpa using hw
        by_cases hl : isLocalClose r = true
        · exact .inr (.inl ⟨s, r, rfl, hop, hw', hl, by rw [if_pos hl]; rfl⟩)
        · refine .inr (.inr (.inl ⟨s, r, rfl, hop, hw', by simpa using hl, ?_⟩))
          rw [if_neg hl]
          have hs : (filterEvent s.taken (rawEvent s.interest.key r)).1.socket = s.socket := by
            unfold filterEvent; dsimp only; repeat' split
            all_goals rfl
          show (Fed.update true (filterEvent s.taken (rawEvent s.interest.key r)).1.socket _, _) = _
          rw [hs]
          rfl
    | _ => exact .inr (.inr (.inr (.inr (.inr (.inr ⟨.inl ⟨s, rfl, by rw [hop]; nofun⟩, rfl⟩)))))
  | waitable w => exact .inr (.inr (.inr (.inl ⟨w, rfl, rfl⟩)))
  | custom ev => exact .inr (.inr (.inr (.inr (.inl ⟨ev, rfl, rfl⟩))))
  | wakeup => exact .inr (.inr (.inr (.inr (.inr (.inl ⟨rfl, rfl⟩)))))
  | free => exact .inr (.inr (.inr (.inr (.inr (.inr ⟨.inr rfl, rfl⟩)))))

/-- What filtering does to the packet. -/
theorem filterEvent_frame (s ev) : (filterEvent s ev).1.socket = s.socket ∧ (filterEvent s ev).1.mode = s.mode ∧
    (filterEvent s ev).1.waitingOnDelete = s.waitingOnDelete ∧ (filterEvent s ev).1.status = s.status ∧
    (filterEvent s ev).1.inUse = s.inUse ∧ (filterEvent s ev).1.op = s.op := by
  unfold filterEvent; dsimp only; repeat' split
  all_goals exact ⟨rfl, rfl, rfl, rfl, rfl, rfl⟩

/-- An event disarms a one-shot registration; otherwise nothing changes. -/
theorem filterEvent_arm (s ev) :
    ((filterEvent s ev).2 = none ∧ (filterEvent s ev).1 = s) ∨
    (∃ e, (filterEvent s ev).2 = some e ∧ (filterEvent s ev).1 =
      if s.mode = .oneshot then { s with interest := Event.none s.interest.key, interestError := false } else s) := by
  unfold filterEvent; dsimp only
  split
  · exact .inr ⟨_, rfl, rfl⟩
  · exact .inl ⟨rfl, rfl⟩

theorem interestOf_key (q : Reg) : (interestOf q).key = q.ev.key := by unfold interestOf; split <;> rfl

/-- What `begin_delete` does to the packet. -/
theorem beginDelete_pkt (fault c p) :
    (∃ s s', c.pk p = .socket s ∧ (beginDelete fault c p).2.pk p = .socket s' ∧ s'.socket = s.socket ∧ s'.interest = s.interest ∧
      s'.interestError = s.interestError ∧ s'.mode = s.mode ∧ s'.waitingOnDelete = true) ∨
    (∃ w w', c.pk p = .waitable w ∧ (beginDelete fault c p).2.pk p = .waitable w' ∧ w'.handle = w.handle ∧ w'.interest = w.interest ∧
      w'.mode = w.mode) ∨
    ((∀ s, c.pk p ≠ .socket s) ∧ (beginDelete fault c p).2.pk p = c.pk p ∧ ∀ w, c.pk p ≠ .waitable w) := by
  unfold beginDelete
  cases h : c.pk p with
  | socket s =>
    refine .inl ⟨s, ?_⟩
    dsimp only
    split
    · rename_i hw
      exact ⟨s, rfl, h, rfl, rfl, rfl, rfl, hw⟩
    · split
      · obtain ⟨f1, f2, f3, f4, f5⟩ := cancel_frame fault { s with waitingOnDelete := true }
        exact ⟨_, rfl, setPk_self .., f1, f2, f3, f4, f5⟩
      · exact ⟨_, rfl, setPk_self .., rfl, rfl, rfl, rfl, rfl⟩
  | waitable w => exact .inr (.inl ⟨w, _, rfl, setPk_self .., rfl, rfl, rfl⟩)
  | _ => exact .inr (.inr ⟨nofun, h, nofun⟩)

/-- The invariant is kept by every effect. -/
theorem ti_eff {tr c o c'} (h : TI tr c) (he : Eff c o c') : TI (o :: tr) c' := by
  cases he with
  | quiet h1 h2 h3 h4 =>
    refine ⟨?_, ?_, ?_, ?_, ?_, ?_⟩
    · rw [h1, h2]; exact h.low
    · rw [h1]; exact h.wake
    · rw [h2]; exact h.pos
    · intro k fd; rw [registered_quiet h4, h3]; exact h.tab k fd
    · rw [h1, h3]; exact h.ids
    · intro p; rw [reg_quiet h4, h1]; exact h.regs p
  | @insert _ t k fd ev mode ht hpk hn htab hok =>
    have hok' : edge mode = false := by
      simp only [okCall, callMode, Bool.and_eq_true, Bool.not_eq_true'] at hok
      exact hok.1.2
    refine ⟨?_, ?_, ?_, ?_, ?_, ?_⟩
    · intro p hp
      rw [hn] at hp
      rw [hpk]; dsimp only
      rw [if_neg (by omega)]
      exact h.low p (by omega)
    · rw [hpk]; dsimp only
      have := h.pos
      rw [if_neg (by omega)]; exact h.wake
    · rw [hn]; have := h.pos; omega
    · intro k' x
      rw [htab]
      simp only [registered]
      split
      · rfl
      · exact h.tab k' x
    · intro k' x p hp
      rw [htab] at hp
      dsimp only at hp
      rw [hpk]; dsimp only
      split at hp
      · rename_i he
        obtain ⟨e1, e2⟩ := he
        subst e1; subst e2
        cases hp
        rw [if_pos rfl]
        unfold newPkt
        split <;> simp_all [ident]
      · rw [if_neg]
        · exact h.ids k' x p hp
        · intro e
          subst e
          have := h.ids k' x _ hp
          rw [h.low _ (Nat.le_refl _)] at this
          cases this
    · intro p
      rw [hpk]; dsimp only [reg]
      split
      · unfold newPkt
        split
        · rename_i hk
          refine ⟨_, rfl, hk, rfl, rfl, hok', by simp, (interestOf_new ..).symm, by simp⟩
        · rename_i hk
          exact ⟨_, rfl, by simpa using hk, rfl, rfl, hok', (interestOf_new ..).symm⟩
      · exact h.regs p
  | @remove _ t k fd p ht hpk hn htab =>
    refine ⟨?_, ?_, ?_, ?_, ?_, ?_⟩
    · rw [hpk, hn]; exact h.low
    · rw [hpk]; exact h.wake
    · rw [hn]; exact h.pos
    · intro k' x
      rw [htab]
      simp only [registered]
      split
      · rfl
      · exact h.tab k' x
    · intro k' x q hq
      rw [htab] at hq
      dsimp only at hq
      split at hq
      · cases hq
      · rw [hpk]; exact h.ids k' x q hq
    · intro q; rw [hpk]; exact h.regs q
  | @set t k fd p ev mode hok =>
    have hr := h.regs p
    have hpk : ∀ q, q ≠ p → (setEvents c p ev mode).2.pk q = c.pk q := by
      intro q hq
      unfold setEvents
      split
      · exact setPk_other _ _ hq
      · exact setPk_other _ _ hq
      · rfl
    have hreg : ∀ q, q ≠ p → reg (.changed t k fd p ev mode :: tr) q = reg tr q := by
      intro q hq; simp only [reg]; rw [if_neg hq]
    have hself : reg (.changed t k fd p ev mode :: tr) p = (reg tr p).map fun r => { r with ev, mode, fired := false } := by
      simp [reg]
    have hn : (setEvents c p ev mode).2.next = c.next := by unfold setEvents; split <;> rfl
    have htab : (setEvents c p ev mode).2.table = c.table := by unfold setEvents; split <;> rfl
    have hok' : edge mode = false := by
      simp only [okCall, callMode, Bool.and_eq_true, Bool.not_eq_true'] at hok
      exact hok.1.2
    refine ti_one (p := p) h hn htab hpk ?_ ?_ ?_ rfl hreg ?_
    · unfold setEvents; split <;> simp [*, setPk, ident, setEventsSock]
    · intro hf; unfold setEvents; simp [hf]
    · intro hf; unfold setEvents; simp [hf]
    · rw [hself]
      unfold setEvents
      split
      · rename_i s hs; rw [hs] at hr
        obtain ⟨q, e1, e2, e3, e4, e5, e6, e7, e8⟩ := hr
        rw [e1]
        dsimp only [setEventsSock]
        rw [setPk_self]
        refine ⟨_, rfl, e2, e3, rfl, hok', e6, (interestOf_new ..).symm, by simp⟩
      · rename_i w hs; rw [hs] at hr
        obtain ⟨q, e1, e2, e3, e4, e5, e6⟩ := hr
        rw [e1]
        dsimp only
        rw [setPk_self]
        exact ⟨_, rfl, e2, e3, rfl, hok', (interestOf_new ..).symm⟩
      · rename_i h1 h2
        revert hr h1 h2
        dsimp only
        generalize c.pk p = x
        cases x <;> intro hr h1 h2 <;> first | exact absurd rfl (h1 _) | exact absurd rfl (h2 _) | (simp only [Agrees] at hr ⊢; rw [hr]; rfl)
  | @del t k fd p fault =>
    have hr := h.regs p
    obtain ⟨hn, htab, _, _, _, hpk⟩ := beginDelete_frame fault c p
    have hreg : ∀ q, q ≠ p → reg (.deleted t k fd p (beginDelete fault c p).1 :: tr) q = reg tr q := by
      intro q hq; simp only [reg]; rw [if_neg hq]
    have hself : reg (.deleted t k fd p (beginDelete fault c p).1 :: tr) p = (reg tr p).map fun r => { r with ended := true } := by
      simp [reg]
    have hp := beginDelete_pkt fault c p
    refine ti_one (p := p) h hn htab hpk ?_ ?_ ?_ rfl hreg ?_
    · rcases hp with ⟨s, s', e1, e2, f1, f2, f3, f4, f5⟩ | ⟨w, w', e1, e2, f1, f2, f3⟩ | ⟨e1, e2, _⟩
      · rw [e1, e2]; simp [ident, f1]
      · rw [e1, e2]; simp [ident, f1]
      · rw [e2]
    · intro hf
      rcases hp with ⟨s, s', e1, e2, f1, f2, f3, f4, f5⟩ | ⟨w, w', e1, e2, f1, f2, f3⟩ | ⟨e1, e2, _⟩
      · rw [e1] at hf; cases hf
      · rw [e1] at hf; cases hf
      · rw [e2, hf]
    · intro hf
      rcases hp with ⟨s, s', e1, e2, f1, f2, f3, f4, f5⟩ | ⟨w, w', e1, e2, f1, f2, f3⟩ | ⟨e1, e2, _⟩
      · rw [e1] at hf; cases hf
      · rw [e1] at hf; cases hf
      · rw [e2, hf]
    · rw [hself]
      rcases hp with ⟨s, s', e1, e2, f1, f2, f3, f4, f5⟩ | ⟨w, w', e1, e2, f1, f2, f3⟩ | ⟨e1, e2, e3⟩
      · rw [e1] at hr; rw [e2]
        obtain ⟨q, g1, g2, g3, g4, g5, g6, g7, g8⟩ := hr
        rw [g1]
        exact ⟨_, rfl, g2, by rw [f1]; exact g3, by rw [f4]; exact g4, g5, fun _ => f5, by rw [f2]; exact g7, by rw [f3]; exact g8⟩
      · rw [e1] at hr; rw [e2]
        obtain ⟨q, g1, g2, g3, g4, g5, g6⟩ := hr
        rw [g1]
        exact ⟨_, rfl, g2, by rw [f1]; exact g3, by rw [f3]; exact g4, g5, by rw [f2]; exact g6⟩
      · rw [e2]
        revert hr e1 e3
        generalize c.pk p = x
        cases x <;> intro hr h1 h2 <;> first | exact absurd rfl (h1 _) | exact absurd rfl (h2 _) | (simp only [Agrees] at hr ⊢; rw [hr]; rfl)
  | update ho => exact ti_update h (registered_quiet ho) (reg_quiet ho)
  | @feed p k fd ev o hf ho =>
    have ha := h.regs p
    obtain ⟨hn, htab, _, _, _, hpk⟩ := feed_frame c p
    have hreg : ∀ q, q ≠ p → reg (o :: tr) q = reg tr q := by
      intro q hq
      subst ho
      cases ev with
      | none => rfl
      | some ev => simp only [reg]; rw [if_neg hq]
    have hregd : registered (o :: tr) = registered tr := by
      subst ho; cases ev <;> rfl
    have hself : reg (o :: tr) p = if ev.isSome then (reg tr p).map fun r => { r with fired := true } else reg tr p := by
      subst ho
      cases ev with
      | none => rfl
      | some ev => simp [reg]
    rcases feed_cases c p with ⟨s, r, e1, e2, e3, e4⟩ | ⟨s, r, e1, e2, e3, e4, e5⟩ | ⟨s, r, e1, e2, e3, e4, e5⟩ | ⟨w, e1, e5⟩ | ⟨e, e1, e2⟩ |
      ⟨e1, e2⟩ | ⟨e1, e2⟩
    · rw [e4] at hf; cases hf
    · rw [e5] at hf; cases hf
    · rw [e5] at hf; cases hf
      have hpkp : (feed c p).2.pk p = .socket (filterEvent s.taken (rawEvent s.interest.key r)).1 := by rw [e5, setPk_self]
      rw [e1] at ha
      obtain ⟨q, g1, g2, g3, g4, g5, g6, g7, g8⟩ := ha
      obtain ⟨f1, f2, f3, _, _, _⟩ := filterEvent_frame s.taken (rawEvent s.interest.key r)
      refine ti_one (p := p) h hn htab hpk ?_ ?_ ?_ hregd hreg ?_
      · rw [hpkp, e1]; simp only [ident]; rw [f1]; rfl
      · rw [e1]; nofun
      · rw [e1]; nofun
      · rw [hpkp, hself]
        rcases filterEvent_arm s.taken (rawEvent s.interest.key r) with ⟨hn', hs⟩ | ⟨e, he, hs⟩
        · rw [hn', hs]
          exact ⟨q, g1, g2, g3, g4, g5, g6, g7, g8⟩
        · rw [he, g1]
          have g7' : s.taken.interest = interestOf q := g7
          have g8' : s.taken.interestError = !(q.fired && decide (q.mode = .oneshot)) := g8
          have g4' : s.taken.mode = q.mode := g4
          refine ⟨_, rfl, g2, by rw [f1]; exact g3, by rw [f2]; exact g4, g5, fun x => by rw [f3]; exact g6 x, ?_, ?_⟩
          · rw [hs, g4']
            by_cases hm : q.mode = .oneshot
            · rw [if_pos hm]; dsimp only
              rw [g7', interestOf_key]
              simp [interestOf, hm]
            · rw [if_neg hm, g7']
              simp [interestOf, hm]
          · rw [hs, g4']
            by_cases hm : q.mode = .oneshot
            · rw [if_pos hm]; simp [hm]
            · rw [if_neg hm, g8']; simp [hm]
    · rw [e5] at hf; cases hf
      have hpkp : (feed c p).2.pk p = .waitable (if w.mode = .oneshot then { w with interest := Event.none w.interest.key } else w) := by
        rw [e5, setPk_self]
      rw [e1] at ha
      obtain ⟨q, g1, g2, g3, g4, g5, g6⟩ := ha
      refine ti_one (p := p) h hn htab hpk ?_ ?_ ?_ hregd hreg ?_
      · rw [hpkp, e1]; split <;> rfl
      · rw [e1]; nofun
      · rw [e1]; nofun
      · rw [hpkp, hself, g1]
        refine ⟨_, rfl, g2, ?_, ?_, g5, ?_⟩
        · rw [g3]; split <;> rfl
        · rw [← g4]; split <;> rfl
        · rw [g4]
          by_cases hm : q.mode = .oneshot
          · rw [if_pos hm]; dsimp only
            rw [g6, interestOf_key]
            simp [interestOf, hm]
          · rw [if_neg hm, g6]
            simp [interestOf, hm]
    · rw [e2] at hf; cases hf
    · rw [e2] at hf; cases hf
    · rw [e2] at hf; cases hf
  | @feedQuiet p o hf ho =>
    have ha := h.regs p
    have hsame : ∀ c' : Core, c'.pk = c.pk → c'.next = c.next → c'.table = c.table → TI (o :: tr) c' := by
      intro c' h1 h2 h3
      refine ⟨?_, ?_, ?_, ?_, ?_, ?_⟩
      · rw [h1, h2]; exact h.low
      · rw [h1]; exact h.wake
      · rw [h2]; exact h.pos
      · intro k fd; rw [registered_quiet ho, h3]; exact h.tab k fd
      · rw [h1, h3]; exact h.ids
      · intro p; rw [reg_quiet ho, h1]; exact h.regs p
    have hsock : ∀ s, c.pk p = .socket s → TI (o :: tr) (setPk c p (.socket s.taken)) := by
      intro s e1
      rw [e1] at ha
      refine ti_one (p := p) h rfl rfl (fun q hq => setPk_other _ _ hq) ?_ ?_ ?_ (registered_quiet ho) (fun q _ => by rw [reg_quiet ho]) ?_
      · rw [setPk_self, e1]; rfl
      · rw [e1]; nofun
      · rw [e1]; nofun
      · rw [setPk_self, reg_quiet ho]; exact agrees_sock ha rfl rfl rfl rfl id
    rcases feed_cases c p with ⟨s, r, e1, e2, e3, e4⟩ | ⟨s, r, e1, e2, e3, e4, e5⟩ | ⟨s, r, e1, e2, e3, e4, e5⟩ | ⟨w, e1, e5⟩ | ⟨e, e1, e2⟩ |
      ⟨e1, e2⟩ | ⟨e1, e2⟩
    · rw [e4]; exact hsock s e1
    · rw [e5]; exact hsock s e1
    · rw [e5] at hf; exact absurd rfl (hf _ _ _)
    · rw [e5] at hf; exact absurd rfl (hf _ _ _)
    · rw [e2]; exact hsame _ rfl rfl rfl
    · rw [e2]; exact hsame _ rfl rfl rfl
    · rw [e2]; exact hsame _ rfl rfl rfl
  | drop ho =>
    exact ti_drop _ ⟨h.low, h.wake, h.pos, fun k fd => by rw [registered_quiet ho]; exact h.tab k fd, h.ids,
      fun p => by rw [reg_quiet ho]; exact h.regs p⟩
  | packet hpk hn htab hb =>
    refine ⟨?_, ?_, ?_, ?_, ?_, ?_⟩
    · intro p hp
      rw [hn] at hp
      rw [hpk]; dsimp only
      rw [if_neg (by omega)]
      exact h.low p (by omega)
    · rw [hpk]; dsimp only
      have := h.pos
      rw [if_neg (by omega)]; exact h.wake
    · rw [hn]; have := h.pos; omega
    · intro k' x; rw [htab]; exact h.tab k' x
    · intro k' x p hp
      rw [htab] at hp
      rw [hpk]; dsimp only
      rw [if_neg]
      · exact h.ids k' x p hp
      · intro e
        subst e
        have := h.ids k' x _ hp
        rw [h.low _ (Nat.le_refl _)] at this
        cases this
    · intro p
      rw [hpk]; dsimp only
      have hp := h.regs p
      split
      · rename_i e; subst e
        rw [h.low _ (Nat.le_refl _)] at hp
        exact hp
      · exact hp
  | @complete _ p k mask cancelling r hp hop hr hpk hn htab =>
    have ha := h.regs p
    rw [hp] at ha
    refine ti_one (p := p) h hn htab ?_ ?_ ?_ ?_ rfl (fun _ _ => rfl) ?_
    · intro q hq; rw [hpk]; exact setPk_other _ _ hq
    · rw [hpk, setPk_self, hp]; rfl
    · rw [hp]; nofun
    · rw [hp]; nofun
    · rw [hpk, setPk_self]; exact agrees_sock ha rfl rfl rfl rfl id
  | @wtb _ p w status hp hpk hn htab =>
    have ha := h.regs p
    rw [hp] at ha
    refine ti_one (p := p) h hn htab ?_ ?_ ?_ ?_ rfl (fun _ _ => rfl) ?_
    · intro q hq; rw [hpk]; exact setPk_other _ _ hq
    · rw [hpk, setPk_self, hp]; rfl
    · rw [hp]; nofun
    · rw [hp]; nofun
    · rw [hpk, setPk_self]; exact agrees_wtb ha rfl rfl rfl

/-- The history and the packets agree in every reachable state. -/
theorem reach_ti {threads P s tr} (h : Reach threads P s tr) : TI tr s.c := by
  induction h with
  | init =>
    refine ⟨?_, rfl, Nat.lt_succ_self 0, fun _ _ => rfl, nofun, ?_⟩
    · intro p hp
      have : 1 ≤ p := hp
      show (if p = NOTIFIER then Pkt.wakeup else Pkt.free) = Pkt.free
      rw [if_neg]; unfold NOTIFIER; omega
    · intro p
      show Agrees none (if p = NOTIFIER then Pkt.wakeup else Pkt.free)
      split <;> rfl
  | step h _ hs ih => exact ti_eff ih (reach_eff h hs)

theorem reach_split {n P s tr} (h : Reach n P s tr) : ∀ later o earlier, tr = later ++ o :: earlier →
    ∃ s0 a s1, Reach n P s0 earlier ∧ P s0 a ∧ step n s0 a = some (s1, o) := by
  induction h with
  | init => intro later o earlier he; simp at he
  | @step s tr a s' o' hr hp hs ih =>
    intro later o earlier he
    cases later with
    | nil =>
      simp only [List.nil_append, List.cons.injEq] at he
      obtain ⟨rfl, rfl⟩ := he
      exact ⟨s, a, s', hr, hp, hs⟩
    | cons x later =>
      simp only [List.cons_append, List.cons.injEq] at he
      exact ih later o earlier he.2

theorem run_reach {n P s tr} (h : Reach n P s tr) {acts : List Act} : ∀ {s' obs}, (∀ s, ∀ a ∈ acts, P s a) →
    runActs n s acts = some (s', obs) → Reach n P s' (obs ++ tr) := by
  induction acts generalizing s tr with
  | nil => intro s' obs _ hr; cases hr; exact h
  | cons a acts ih =>
    intro s' obs hP hr
    simp only [runActs, Option.bind_eq_some_iff, Option.map_eq_some_iff] at hr
    obtain ⟨⟨s1, o⟩, hs, ⟨s2, obs2⟩, hr2, he⟩ := hr
    injection he with h1 h2
    subst h1 h2
    have := ih (h.step (hP _ a (by simp)) hs) (fun s a ha => hP s a (by simp [ha])) hr2
    simpa using this

/-- What filtering lets through. -/
theorem filterEvent_some {s ev e} (h : (filterEvent s ev).2 = some e) :
    e = { ev with readable := ev.readable && s.interest.readable, writable := ev.writable && s.interest.writable } ∧
      (e.readable || e.writable || intersects e.extra.flags s.interest.extra.flags) = true := by
  unfold filterEvent at h; dsimp only at h
  split at h
  · rename_i hc; cases h; exact ⟨rfl, hc⟩
  · cases h

theorem rawEvent_key (key r) : (rawEvent key r).key = key := by
  unfold rawEvent; repeat' split
  all_goals rfl

/-- A delivery, against the history. -/
theorem delivered {n P s tr a s' k fd p ev} (h : Reach n P s tr) (hs : step n s a = some (s', .deliver k fd p ev)) :
    ∃ q, reg tr p = some q ∧ q.sock = k ∧ q.fd = fd ∧
      (k = true → q.ended = false ∧ ev.key = q.ev.key ∧ (ev.readable = true → (interestOf q).readable = true) ∧
        (ev.writable = true → (interestOf q).writable = true) ∧
        (ev.readable || ev.writable || intersects ev.extra.flags (interestOf q).extra.flags) = true) ∧
      (k = false → ev = interestOf q) := by
  have hti := reach_ti h
  have he := reach_eff h hs
  generalize ho : IObs.deliver k fd p ev = o at he
  generalize s'.c = c' at he
  cases he with
  | @feed p' k' fd' ev' o hf ho' =>
    subst ho'
    cases ev' with
    | none => cases ho
    | some ev' =>
      dsimp only at ho
      injection ho with h1 h2 h3 h4
      subst h1 h2 h3 h4
      have ha := hti.regs p
      rcases feed_cases s.c p with ⟨s, r, e1, e2, e3, e4⟩ | ⟨s, r, e1, e2, e3, e4, e5⟩ | ⟨s, r, e1, e2, e3, e4, e5⟩ | ⟨w, e1, e5⟩ | ⟨e, e1, e2⟩ |
        ⟨e1, e2⟩ | ⟨e1, e2⟩
      · rw [e4] at hf; cases hf
      · rw [e5] at hf; cases hf
      · rw [e5] at hf
        injection hf with f1 f2 f3
        subst f1 f2
        rw [e1] at ha
        obtain ⟨q, g1, g2, g3, g4, g5, g6, g7, g8⟩ := ha
        refine ⟨q, g1, g2, g3, fun _ => ?_, nofun⟩
        obtain ⟨i1, i2⟩ := filterEvent_some f3
        have hi : s.taken.interest = interestOf q := g7
        rw [hi] at i1 i2
        refine ⟨?_, ?_, ?_, ?_, i2⟩
        · cases hq : q.ended with
          | false => rfl
          | true => rw [g6 hq] at e3; cases e3
        · rw [i1]; show (rawEvent s.interest.key r).key = _
          rw [rawEvent_key, g7, interestOf_key]
        · rw [i1]; intro hx; dsimp only at hx; simp only [Bool.and_eq_true] at hx; exact hx.2
        · rw [i1]; intro hx; dsimp only at hx; simp only [Bool.and_eq_true] at hx; exact hx.2
      · rw [e5] at hf
        injection hf with f1 f2 f3
        subst f1 f2
        cases f3
        rw [e1] at ha
        obtain ⟨q, g1, g2, g3, g4, g5, g6⟩ := ha
        exact ⟨q, g1, g2, g3, nofun, fun _ => g6⟩
      · rw [e2] at hf; cases hf
      · rw [e2] at hf; cases hf
      · rw [e2] at hf; cases hf
  | quiet _ _ _ hq => subst ho; exact absurd hq id
  | update hq => subst ho; exact absurd hq id
  | feedQuiet _ hq => subst ho; exact absurd hq id
  | drop hq => subst ho; exact absurd hq id
  | _ => cases ho

end Polling.IocpM
