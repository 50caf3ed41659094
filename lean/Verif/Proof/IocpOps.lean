import Verif.Proof.IocpOwn

/-! AFD operations: a packet is used by one operation at a time, and its completion is queued once. -/

namespace Polling.IocpM
open Iocp IocpSpec

/-- A packet with an operation is in use, and an idle one has none. -/
def OpOk : Pkt → Prop
  | .socket k => (k.op ≠ .none → k.inUse = true) ∧ (k.status = .idle → k.op = .none)
  | _ => True

theorem opOk_cancel {fault k} (h : OpOk (.socket k)) : OpOk (.socket (cancel fault k).2) := by
  obtain ⟨h1, h2⟩ := h
  unfold cancel
  split
  · exact ⟨h1, h2⟩
  · refine ⟨fun h => h1 fun hn => h ?_, nofun⟩
    dsimp only
    rw [hn]; rfl

theorem opOk_updateSock {fault k} (h : OpOk (.socket k)) : OpOk (.socket (updateSock fault k).2.1) := by
  have hc := opOk_cancel (fault := fault) h
  obtain ⟨h1, h2⟩ := h
  unfold updateSock
  split
  · exact ⟨h1, h2⟩
  split
  · split
    · exact hc
    · exact ⟨h1, h2⟩
  · exact ⟨h1, h2⟩
  · rename_i hi
    unfold startPoll
    dsimp only
    split
    · exact ⟨h1, nofun⟩
    · split
      · exact ⟨fun _ => rfl, nofun⟩
      · split
        · exact ⟨fun _ => rfl, nofun⟩
        · exact ⟨fun _ => rfl, h2⟩

theorem opOk_eff {c o c'} (h : ∀ p, OpOk (c.pk p)) (he : Eff c o c') : ∀ p, OpOk (c'.pk p) := by
  have one : ∀ {p : PId} {c' : Core}, (∀ q, q ≠ p → c'.pk q = c.pk q) → OpOk (c'.pk p) → ∀ q, OpOk (c'.pk q) := by
    intro p c' h1 h2 q
    by_cases e : q = p
    · subst e; exact h2
    · rw [h1 q e]; exact h q
  have hup : ∀ fault p, OpOk ((update fault c p).2.1.pk p) := by
    intro fault p
    have hp := h p
    rw [update_pkt]
    split
    · rename_i s hs
      rw [hs] at hp
      exact opOk_updateSock hp
    · trivial
    · exact hp
  cases he with
  | quiet h1 _ _ _ => rw [h1]; exact h
  | @insert _ t k fd ev mode ht hpk hn htab hok =>
    intro p
    rw [hpk]; dsimp only
    split
    · unfold newPkt
      split
      · exact ⟨fun h => absurd rfl h, fun _ => rfl⟩
      · trivial
    · exact h p
  | remove _ h1 _ _ => rw [h1]; exact h
  | @set t k fd p ev mode hok =>
    have hp := h p
    unfold setEvents
    split
    · rename_i s hs; rw [hs] at hp
      exact one (p := p) (fun q hq => setPk_other _ _ hq) (by rw [setPk_self]; exact hp)
    · exact one (p := p) (fun q hq => setPk_other _ _ hq) (by rw [setPk_self]; trivial)
    · exact h
  | @del t k fd p fault =>
    have hp := h p
    refine one (p := p) (beginDelete_frame fault c p).2.2.2.2.2 ?_
    unfold beginDelete
    dsimp only
    split
    · rename_i s hs; rw [hs] at hp
      split
      · dsimp only; rw [hs]; exact hp
      · split
        · rw [setPk_self]; exact opOk_cancel (k := { s with waitingOnDelete := true }) hp
        · rw [setPk_self]; exact hp
    · rw [setPk_self]; trivial
    · exact hp
  | @update p fault _ _ => exact one (p := p) (update_frame fault c p).2.2.2.2.2 (hup fault p)
  | @feed p k fd ev o hf ho =>
    refine one (p := p) (feed_frame c p).2.2.2.2.2 ?_
    rcases feed_cases c p with ⟨s, r, e1, e2, e3, e4⟩ | ⟨s, r, e1, e2, e3, e4, e5⟩ | ⟨s, r, e1, e2, e3, e4, e5⟩ | ⟨w, e1, e5⟩ | ⟨e, e1, e2⟩ |
      ⟨e1, e2⟩ | ⟨e1, e2⟩
    · rw [e4] at hf; cases hf
    · rw [e5] at hf; cases hf
    · rw [e5, setPk_self]
      obtain ⟨_, _, _, _, _, f6⟩ := filterEvent_frame s.taken (rawEvent s.interest.key r)
      have f6' : (filterEvent s.taken (rawEvent s.interest.key r)).1.op = .none := f6
      exact ⟨fun h => absurd f6' h, fun _ => f6'⟩
    · rw [e5, setPk_self]; trivial
    · rw [e2] at hf; cases hf
    · rw [e2] at hf; cases hf
    · rw [e2] at hf; cases hf
  | @feedQuiet p o hf ho =>
    rcases feed_cases c p with ⟨s, r, e1, e2, e3, e4⟩ | ⟨s, r, e1, e2, e3, e4, e5⟩ | ⟨s, r, e1, e2, e3, e4, e5⟩ | ⟨w, e1, e5⟩ | ⟨e, e1, e2⟩ |
      ⟨e1, e2⟩ | ⟨e1, e2⟩
    · rw [e4]
      exact one (p := p) (fun q hq => setPk_other _ _ hq) (by rw [setPk_self]; exact ⟨fun h => absurd rfl h, fun _ => rfl⟩)
    · rw [e5]
      exact one (p := p) (fun q hq => setPk_other _ _ hq) (by rw [setPk_self]; exact ⟨fun h => absurd rfl h, fun _ => rfl⟩)
    · rw [e5] at hf; exact absurd rfl (hf _ _ _)
    · rw [e5] at hf; exact absurd rfl (hf _ _ _)
    · rw [e2]; exact h
    · rw [e2]; exact h
    · rw [e2]; exact h
  | @drop q o ho =>
    intro x
    show OpOk ((dropEntry c q).pk x)
    by_cases e : x = q
    · subst e
      rw [dropEntry_pkt]
      have hx := h x
      split
      · exact ⟨fun h => absurd rfl h, fun _ => rfl⟩
      · exact hx
    · rw [(dropEntry_frame c q).2.2.2.2.2 x e]; exact h x
  | packet hpk hn htab hb =>
    intro p
    rw [hpk]; dsimp only
    split
    · trivial
    · exact h p
  | @complete _ p k mask cancelling r hp hop hr hpk hn htab =>
    have hc := h p
    rw [hp] at hc
    rw [hpk]
    refine one (p := p) (fun q hq => setPk_other _ _ hq) ?_
    rw [setPk_self]
    refine ⟨fun _ => hc.1 (by rw [hop]; nofun), fun hi => ?_⟩
    have := hc.2 hi
    rw [hop] at this; cases this
  | @wtb _ p w status hp hpk hn htab =>
    rw [hpk]
    exact one (p := p) (fun q hq => setPk_other _ _ hq) (by rw [setPk_self]; trivial)

theorem reach_opOk {threads P s tr} (h : Reach threads P s tr) : ∀ p, OpOk (s.c.pk p) := by
  induction h with
  | init =>
    intro p
    show OpOk (if p = NOTIFIER then Pkt.wakeup else Pkt.free)
    split <;> trivial
  | step h _ hs ih => exact opOk_eff ih (reach_eff h hs)

/-- What the queue of completions depends on: a socket and whether its operation is complete. -/
inductive Kind where
  | free | sock (done : Bool) | wtb | custom (ev : Event EventExtra) | wakeup
deriving DecidableEq

def kind : Pkt → Kind
  | .free => .free
  | .socket k => .sock (match k.op with | .done _ => true | _ => false)
  | .waitable _ => .wtb
  | .custom ev => .custom ev
  | .wakeup => .wakeup

theorem kind_cancel (fault k) : kind (.socket (cancel fault k).2) = kind (.socket k) := by
  unfold cancel
  cases ho : k.op <;> cases fault <;> simp [kind, ho, Op.cancel]

theorem kind_update {fault c p} (h : OpOk (c.pk p)) (q) : kind ((update fault c p).2.1.pk q) = kind (c.pk q) := by
  by_cases e : q = p
  · subst e
    rw [update_pkt]
    split
    · rename_i k hk
      rw [hk] at h ⊢
      unfold updateSock
      split
      · rfl
      split
      · split
        · exact kind_cancel fault k
        · rfl
      · rfl
      · rename_i hi
        have hop := h.2 hi
        unfold startPoll
        dsimp only
        split
        · rfl
        · split
          · simp [kind, hop]
          · split <;> rfl
    · rename_i w hw; rw [hw]; rfl
    · rfl
  · rw [(update_frame fault c p).2.2.2.2.2 q e]

theorem kind_setEvents (c p ev mode q) : kind ((setEvents c p ev mode).2.pk q) = kind (c.pk q) := by
  by_cases e : q = p
  · subst e
    unfold setEvents
    split
    · rename_i s hs; rw [hs]; dsimp only; rw [setPk_self]; rfl
    · rename_i s hs; rw [hs]; dsimp only; rw [setPk_self]; rfl
    · rfl
  · unfold setEvents; split
    · rw [setPk_other _ _ e]
    · rw [setPk_other _ _ e]
    · rfl

theorem kind_beginDelete (fault c p q) : kind ((beginDelete fault c p).2.pk q) = kind (c.pk q) := by
  by_cases e : q = p
  · subst e
    unfold beginDelete
    dsimp only
    split
    · rename_i s hs
      split
      · rfl
      · split
        · rw [setPk_self, hs]; exact kind_cancel fault { s with waitingOnDelete := true }
        · rw [setPk_self, hs]; rfl
    · rename_i w hw; rw [setPk_self, hw]; rfl
    · rfl
  · rw [(beginDelete_frame fault c p).2.2.2.2.2 q e]

/-- After a completion is taken, the operation is over. -/
theorem kind_feed (c p q) : kind ((feed c p).2.pk q) = if q = p ∧ (∃ b, kind (c.pk p) = .sock b) then .sock false else kind (c.pk q) := by
  by_cases e : q = p
  · subst e
    rcases feed_cases c q with ⟨s, r, e1, e2, e3, e4⟩ | ⟨s, r, e1, e2, e3, e4, e5⟩ | ⟨s, r, e1, e2, e3, e4, e5⟩ | ⟨w, e1, e5⟩ | ⟨e, e1, e2⟩ |
      ⟨e1, e2⟩ | ⟨e1, e2⟩
    · rw [e4, setPk_self, if_pos ⟨rfl, _, by rw [e1]; rfl⟩]; rfl
    · rw [e5, setPk_self, if_pos ⟨rfl, _, by rw [e1]; rfl⟩]; rfl
    · rw [e5, setPk_self, if_pos ⟨rfl, _, by rw [e1]; rfl⟩]
      obtain ⟨_, _, _, _, _, f6⟩ := filterEvent_frame s.taken (rawEvent s.interest.key r)
      have f6' : (filterEvent s.taken (rawEvent s.interest.key r)).1.op = .none := f6
      simp [kind, f6']
    · rw [e5, setPk_self, e1]; simp [kind]
    · rw [e2, if_neg (by rintro ⟨_, b, h⟩; rw [e1] at h; cases h)]
    · rw [e2, if_neg (by rintro ⟨_, b, h⟩; rw [e1] at h; cases h)]
    · rw [e2]
      rcases e1 with ⟨s, e1, hop⟩ | e1
      · rw [if_pos ⟨rfl, _, by rw [e1]; rfl⟩, e1]
        simp [kind, hop]
      · rw [if_neg (fun h => by obtain ⟨_, b, h⟩ := h; rw [e1] at h; exact nomatch h)]
  · rw [(feed_frame c p).2.2.2.2.2 q e, if_neg (fun h => e h.1)]

theorem kind_dropEntries (c : Core) (batch q) :
    kind ((dropEntries c batch).pk q) = if q ∈ batch ∧ (∃ b, kind (c.pk q) = .sock b) then .sock false else kind (c.pk q) := by
  unfold dropEntries
  induction batch generalizing c with
  | nil => simp
  | cons p l ih =>
    rw [List.foldl_cons, ih]
    by_cases e : q = p
    · subst e
      rw [dropEntry_pkt]
      cases hq : c.pk q with
      | socket k => simp [kind]
      | _ => simp [kind]
    · rw [(dropEntry_frame c p).2.2.2.2.2 q e]
      simp [e]

theorem dropEntries_frame (c : Core) (batch) : (dropEntries c batch).next = c.next ∧ (dropEntries c batch).port = c.port := by
  unfold dropEntries
  induction batch generalizing c with
  | nil => exact ⟨rfl, rfl⟩
  | cons p l ih =>
    rw [List.foldl_cons]
    obtain ⟨a, b⟩ := ih (dropEntry c p)
    obtain ⟨d, _, _, _, e, _⟩ := dropEntry_frame c p
    exact ⟨a.trans d, b.trans e⟩

/-- The completion entries that are on their way: taken by `wait` or in the port. -/
def entries (s : S) : List PId := s.phase.batch ++ s.c.port

/-- The observation is not about packets of the user. -/
def NoPost : IObs → Prop
  | .posted .. | .received .. => False
  | _ => True

/-- The steps by their effect on the completion entries. -/
inductive Ent : S → IObs → S → Prop
  /-- none; the packets may change otherwise, and new ones appear -/
  | same {s o s'} : NoPost o → entries s' = entries s → (∀ p, p < s.c.next → kind (s'.c.pk p) = kind (s.c.pk p)) →
      s.c.next ≤ s'.c.next → (∀ p, s.c.next ≤ p → p < s'.c.next → kind (s'.c.pk p) ≠ .sock true) → Ent s o s'
  /-- a packet that is not a socket was posted -/
  | post {s o s' p} : ((∃ ev, kind (s.c.pk p) = .custom ev ∧ o = .posted p ev) ∨ ((∀ ev, kind (s.c.pk p) ≠ .custom ev) ∧ NoPost o)) →
      entries s' = entries s ++ [p] → p < s.c.next →
      (∀ b, kind (s.c.pk p) ≠ .sock b) → s'.c.pk = s.c.pk → s'.c.next = s.c.next → Ent s o s'
  /-- an operation completed -/
  | complete {s o s' p} : NoPost o → entries s' = entries s ++ [p] → kind (s.c.pk p) = .sock false → kind (s'.c.pk p) = .sock true →
      (∀ q, q ≠ p → s'.c.pk q = s.c.pk q) → s'.c.next = s.c.next → Ent s o s'
  /-- the next entry was processed -/
  | feed {s o s' p} : ((∃ ev, kind (s.c.pk p) = .custom ev ∧ o = .received p ev) ∨ ((∀ ev, kind (s.c.pk p) ≠ .custom ev) ∧ NoPost o)) →
      entries s = p :: entries s' → s'.c.next = s.c.next →
      (∀ q, kind (s'.c.pk q) = if q = p ∧ (∃ b, kind (s.c.pk p) = .sock b) then .sock false else kind (s.c.pk q)) →
      (∃ w batch, s.phase = .feed w (p :: batch)) → Ent s o s'
  /-- after an error; an entry that was taken is dropped -/
  | drop {s o s' batch} : NoPost o → (∃ w e p l, s.phase = .drain w e (p :: l) ∧ batch = [p]) →
      entries s = batch ++ entries s' → s'.c.next = s.c.next →
      (∀ q, kind (s'.c.pk q) = if q ∈ batch ∧ (∃ b, kind (s.c.pk q) = .sock b) then .sock false else kind (s.c.pk q)) → Ent s o s'

/-- The invariant about completion entries. -/
structure EI (s : S) : Prop where
  live : ∀ p ∈ entries s, p < s.c.next
  /-- the entry of an operation is there exactly if it is complete, and once -/
  once : ∀ p b, kind (s.c.pk p) = .sock b → (entries s).count p = if b then 1 else 0
  low : ∀ p, s.c.next ≤ p → s.c.pk p = .free

theorem ei_ent {s o s'} (h : EI s) (he : Ent s o s') (hlow : ∀ p, s'.c.next ≤ p → s'.c.pk p = .free) : EI s' := by
  cases he with
  | same _ h1 h2 h3 h4 =>
    refine ⟨?_, ?_, hlow⟩
    · rw [h1]; intro p hp; have := h.live p hp; omega
    · intro p b hb
      rw [h1]
      by_cases hp : p < s.c.next
      · rw [h2 p hp] at hb; exact h.once p b hb
      · have hb' : b = false := by
          cases b with
          | false => rfl
          | true =>
            by_cases hp' : p < s'.c.next
            · exact absurd hb (h4 p (by omega) hp')
            · rw [hlow p (by omega)] at hb; cases hb
        subst hb'
        exact List.count_eq_zero.2 (fun hm => hp (h.live p hm))
  | @post p _ h1 h2 h3 h4 h5 =>
    refine ⟨?_, ?_, hlow⟩
    · rw [h1, h5]; intro q hq
      simp only [List.mem_append, List.mem_singleton] at hq
      rcases hq with hq | rfl
      · exact h.live q hq
      · exact h2
    · intro q b hb
      rw [h4] at hb
      have hne : q ≠ p := by rintro rfl; exact h3 b hb
      rw [h1, List.count_append, h.once q b hb, List.count_singleton]
      simp [Ne.symm hne]
  | @complete p _ h1 h2 h3 h4 h5 =>
    have hp : p < s.c.next := by
      by_cases hp : p < s.c.next
      · exact hp
      · rw [h.low p (by omega)] at h2; cases h2
    refine ⟨?_, ?_, hlow⟩
    · rw [h1, h5]; intro q hq
      simp only [List.mem_append, List.mem_singleton] at hq
      rcases hq with hq | rfl
      · exact h.live q hq
      · exact hp
    · intro q b hb
      rw [h1, List.count_append, List.count_singleton]
      by_cases e : q = p
      · subst e
        rw [h3] at hb; cases hb
        rw [h.once q false h2]; simp
      · rw [h4 q e] at hb
        rw [h.once q b hb]; simp [Ne.symm e]
  | @feed p _ h1 h2 h3 =>
    refine ⟨?_, ?_, hlow⟩
    · intro q hq; rw [h2]; exact h.live q (by rw [h1]; exact List.mem_cons_of_mem _ hq)
    · intro q b hb
      rw [h3] at hb
      split at hb
      · rename_i hc
        obtain ⟨rfl, b', hb'⟩ := hc
        cases hb
        have := h.once q b' hb'
        rw [h1, List.count_cons_self] at this
        cases b'
        · simp at this
        · simpa using this
      · rename_i hc
        have := h.once q b hb
        rw [h1] at this
        have hne : q ≠ p := by rintro rfl; exact hc ⟨rfl, b, hb⟩
        rw [List.count_cons_of_ne (Ne.symm hne)] at this
        exact this
  | @drop batch _ _ h1 h2 h3 =>
    refine ⟨?_, ?_, hlow⟩
    · intro q hq; rw [h2]; exact h.live q (by rw [h1]; simp [hq])
    · intro q b hb
      rw [h3] at hb
      split at hb
      · rename_i hc
        obtain ⟨hm, b', hb'⟩ := hc
        cases hb
        have := h.once q b' hb'
        rw [h1, List.count_append] at this
        have hpos := List.count_pos_iff.2 hm
        cases b' with
        | false => rw [if_neg (by simp)] at this; omega
        | true => rw [if_pos rfl] at this; rw [if_neg (by simp)]; omega
      · rename_i hc
        have := h.once q b hb
        have hnm : q ∉ batch := fun hm => hc ⟨hm, b, hb⟩
        rw [h1, List.count_append, List.count_eq_zero.2 hnm, Nat.zero_add] at this
        exact this

/-- Callbacks belong to waitables. -/
def CbOk (s : S) : Prop := ∀ p ∈ s.cb ++ s.cbPost, kind (s.c.pk p) = .wtb

theorem noPost_updateObs (p m) : NoPost (updateObs p m) := by unfold updateObs; split <;> trivial

theorem ustep_ent {fault c u c' out o} (h : ∀ p, OpOk (c.pk p)) (hu : ustep fault c u = (c', out, o)) :
    NoPost o ∧ c'.port = c.port ∧ c'.next = c.next ∧ ∀ q, kind (c'.pk q) = kind (c.pk q) := by
  have hup : ∀ p, (update fault c p).2.1.port = c.port ∧ (update fault c p).2.1.next = c.next ∧
      ∀ q, kind ((update fault c p).2.1.pk q) = kind (c.pk q) := by
    intro p
    obtain ⟨a, _, _, _, b, _⟩ := update_frame fault c p
    exact ⟨b, a, kind_update (h p)⟩
  cases u with
  | load p => simp only [ustep] at hu; cases hu; exact ⟨trivial, rfl, rfl, fun _ => rfl⟩
  | run p => simp only [ustep] at hu; cases hu; exact ⟨noPost_updateObs _ _, hup p⟩
  | push p => simp only [ustep] at hu; split at hu <;> (cases hu; exact ⟨trivial, rfl, rfl, fun _ => rfl⟩)
  | pop p n => simp only [ustep] at hu; split at hu <;> (cases hu; exact ⟨trivial, rfl, rfl, fun _ => rfl⟩)
  | drain p n q => simp only [ustep] at hu; cases hu; exact ⟨noPost_updateObs _ _, hup q⟩

/-- Steps that touch neither packets nor port. -/
theorem Ent.idle {s o s'} (h0 : NoPost o) (h1 : s'.phase.batch = s.phase.batch) (h2 : s'.c.port = s.c.port) (h3 : s'.c.next = s.c.next)
    (h4 : ∀ q, kind (s'.c.pk q) = kind (s.c.pk q)) : Ent s o s' :=
  .same h0 (by unfold entries; rw [h1, h2]) (fun p _ => h4 p) (by omega) (fun p a b => by omega)

theorem step_ent {n P s tr a s' o} (h : Reach n P s tr) (hcb : CbOk s) (hs : step n s a = some (s', o)) : Ent s o s' := by
  have hok := reach_opOk h
  have hti := reach_ti h
  have hlt : ∀ p, kind (s.c.pk p) ≠ .free → p < s.c.next := by
    intro p hp
    by_cases hq : p < s.c.next
    · exact hq
    · exact absurd (by rw [hti.low p (by omega)]; rfl) hp
  cases a with
  | call t call =>
    simp only [step] at hs
    repeat' split at hs
    all_goals cases hs
    all_goals exact .idle trivial rfl rfl rfl (fun _ => rfl)
  | go t fault =>
    simp only [step, goCall] at hs
    split at hs
    · cases hs
    split at hs
    · split at hs <;> (cases hs; exact .idle trivial rfl rfl rfl (fun _ => rfl))
    · split at hs
      · split at hs
        · cases hs; exact .idle trivial rfl rfl rfl (fun _ => rfl)
        · cases hs
          refine .same trivial rfl ?_ (Nat.le_succ _) ?_
          · intro p hp; dsimp only; rw [setPk_other _ _ (by omega)]
          · intro p h1 h2; dsimp only at h2 ⊢
            have : p = s.c.next := by omega
            subst this
            rw [setPk_self]
            unfold newPkt
            split <;> nofun
      · split at hs <;> (cases hs; exact .idle trivial rfl rfl rfl (fun _ => rfl))
      · split at hs <;> (cases hs; exact .idle trivial rfl rfl rfl (fun _ => rfl))
    · split at hs
      · rename_i call p _ k fd ev mode
        cases hs
        refine .idle trivial rfl ?_ ?_ (kind_setEvents _ _ _ _)
        · dsimp only; unfold setEvents; split <;> rfl
        · dsimp only; unfold setEvents; split <;> rfl
      · cases hs
    · cases hs
      obtain ⟨a, _, _, _, b, _⟩ := beginDelete_frame fault s.c ‹_›
      exact .idle trivial rfl b a (kind_beginDelete _ _ _)
    · split at hs
      · rename_i hu; cases hs
        obtain ⟨a, b, c, d⟩ := ustep_ent hok hu
        exact .idle a rfl b c d
      · rename_i hu; cases hs
        obtain ⟨a, b, c, d⟩ := ustep_ent hok hu
        exact .idle a rfl b c d
    · cases hs; exact .idle trivial rfl rfl rfl (fun _ => rfl)
    · cases hs
  | newPacket ev =>
    simp only [step] at hs
    split at hs
    · cases hs
    · cases hs
      refine .same trivial rfl ?_ (Nat.le_succ _) ?_
      · intro p hp; dsimp only; rw [setPk_other _ _ (by omega)]
      · intro p h1 h2; dsimp only at h2 ⊢
        have : p = s.c.next := by omega
        subst this
        rw [setPk_self]; nofun
  | post p fault =>
    simp only [step] at hs
    split at hs
    · rename_i ev hev
      split at hs
      · cases hs; exact .idle trivial rfl rfl rfl (fun _ => rfl)
      · cases hs
        have hk : kind (s.c.pk p) = .custom ev := by rw [hev]; rfl
        refine .post (p := p) (.inl ⟨ev, hk, rfl⟩) ?_ (hlt p (by rw [hk]; nofun)) (by rw [hk]; nofun) rfl rfl
        simp [entries]
    · cases hs
  | notifyCas t =>
    simp only [step] at hs
    repeat' split at hs
    all_goals cases hs
    all_goals exact .idle trivial rfl rfl rfl (fun _ => rfl)
  | notifyPost t fault =>
    simp only [step] at hs
    split at hs
    · split at hs
      · cases hs; exact .idle trivial rfl rfl rfl (fun _ => rfl)
      · cases hs
        have hk : kind (s.c.pk NOTIFIER) = .wakeup := by rw [hti.wake]; rfl
        refine .post (p := NOTIFIER) (.inr ⟨by rw [hk]; nofun, trivial⟩) ?_ hti.pos (by rw [hk]; nofun) rfl rfl
        simp [entries]
    · cases hs
  | waitBegin timed cap =>
    simp only [step] at hs
    split at hs
    · rename_i hp
      split at hs
      · cases hs
      · cases hs; exact .idle trivial (by rw [hp]; rfl) rfl rfl (fun _ => rfl)
    · cases hs
  | waitBusy =>
    simp only [step] at hs
    repeat' split at hs
    all_goals cases hs
    all_goals exact .idle trivial rfl rfl rfl (fun _ => rfl)
  | wait fault =>
    simp only [step, goWait] at hs
    split at hs
    · rename_i hp; cases hs; exact .idle trivial (by rw [hp]; rfl) rfl rfl (fun _ => rfl)
    · rename_i hp; cases hs; exact .idle trivial (by rw [hp]; rfl) rfl rfl (fun _ => rfl)
    · rename_i hp
      split at hs <;> (cases hs; exact .idle trivial (by rw [hp]; rfl) rfl rfl (fun _ => rfl))
    · rename_i w q hp
      obtain ⟨a, _, _, _, b, _⟩ := update_frame fault s.c q
      have hk := kind_update (fault := fault) (hok q)
      split at hs
      · rename_i c m he; rw [he] at a b hk
        cases hs; exact .idle (noPost_updateObs _ _) (by rw [hp]; rfl) b a hk
      · rename_i e c m he; rw [he] at a b hk
        cases hs; exact .idle (noPost_updateObs _ _) (by rw [hp]; rfl) b a hk
    · rename_i hp; cases hs; exact .idle trivial (by rw [hp]; rfl) rfl rfl (fun _ => rfl)
    · rename_i hp
      unfold waitFail at hs
      split at hs <;> (cases hs; exact .idle trivial (by rw [hp]; rfl) rfl rfl (fun _ => rfl))
    · rename_i hp
      unfold waitFail at hs
      split at hs <;> (cases hs; exact .idle trivial (by rw [hp]; rfl) rfl rfl (fun _ => rfl))
    · rename_i w e p batch hp
      cases hs
      have hf := dropEntries_frame s.c [p]
      refine .drop (batch := [p]) trivial ⟨_, _, _, _, hp, rfl⟩ ?_ hf.1 (kind_dropEntries s.c [p])
      unfold entries
      rw [hp]
      show p :: batch ++ s.c.port = [p] ++ (batch ++ (dropEntries s.c [p]).port)
      rw [hf.2]; rfl
    · rename_i w p batch hp
      obtain ⟨a, _, _, _, b, _⟩ := feed_frame s.c p
      have hk := kind_feed s.c p
      have hns := feed_not_stuck h p
      have hent : ∀ c' : Core, c'.port = s.c.port → ∀ s' : S, s'.c = c' → s'.phase.batch = batch → entries s = p :: entries s' := by
        intro c' h1 s' h2 h3
        unfold entries; rw [h3, h2, h1, hp]; rfl
      have nc : ∀ ev, (feed s.c p).1 ≠ .custom ev → kind (s.c.pk p) ≠ .custom ev := by
        intro ev h1 h2
        cases hpk : s.c.pk p <;> rw [hpk] at h2 <;> try cases h2
        apply h1; simp only [feed, hpk]
      split at hs
      · rename_i c he; rw [he] at a b hk nc; cases hs
        exact .feed (p := p) (.inr ⟨fun ev => nc ev nofun, trivial⟩) (hent _ b _ rfl rfl) a hk ⟨_, _, hp⟩
      · rename_i c he; rw [he] at a b hk nc; cases hs
        exact .feed (p := p) (.inr ⟨fun ev => nc ev nofun, trivial⟩) (hent _ b _ rfl rfl) a hk ⟨_, _, hp⟩
      · rename_i ev c he; rw [he] at a b hk; cases hs
        refine .feed (p := p) (.inl ⟨ev, ?_, rfl⟩) (hent _ b _ rfl rfl) a hk ⟨_, _, hp⟩
        rcases feed_cases s.c p with ⟨s, r, e1, e2, e3, e4⟩ | ⟨s, r, e1, e2, e3, e4, e5⟩ | ⟨s, r, e1, e2, e3, e4, e5⟩ | ⟨w, e1, e5⟩ | ⟨e, e1, e2⟩ |
            ⟨e1, e2⟩ | ⟨e1, e2⟩
        · rw [e4] at he; cases he
        · rw [e5] at he; cases he
        · rw [e5] at he; cases he
        · rw [e5] at he; cases he
        · rw [e2] at he; cases he; rw [e1]; rfl
        · rw [e2] at he; cases he
        · rw [e2] at he; cases he
      · rename_i c he; rw [he] at hns; exact absurd rfl hns
      · rename_i k fd ev c he; rw [he] at a b hk nc; cases hs
        refine .feed (p := p) (.inr ⟨fun ev => nc ev nofun, ?_⟩) (hent _ b _ rfl rfl) a hk ⟨_, _, hp⟩
        split <;> trivial
    · rename_i w batch u ev hp
      split at hs
      · rename_i hu; cases hs
        obtain ⟨a, b, c, d⟩ := ustep_ent hok hu
        exact .idle a (by rw [hp]; rfl) b c d
      · rename_i hu; cases hs
        obtain ⟨a, b, c, d⟩ := ustep_ent hok hu
        exact .idle a (by rw [hp]; rfl) b c d
      · rename_i hu; cases hs
        obtain ⟨a, b, c, d⟩ := ustep_ent hok hu
        exact .idle a (by rw [hp]; rfl) b c d
    · rename_i hp; cases hs; exact .idle trivial (by rw [hp]; rfl) rfl rfl (fun _ => rfl)
    · cases hs
  | get =>
    simp only [step] at hs
    split at hs
    · rename_i w hp
      split at hs
      · cases hs
        refine .same trivial ?_ (fun _ _ => rfl) (Nat.le_refl _) (fun p a b => by dsimp only at b; omega)
        unfold entries
        dsimp only
        rw [hp]
        exact List.take_append_drop _ _
      · cases hs
    · cases hs
  | getFail e =>
    simp only [step] at hs
    split at hs
    · rename_i hp; cases hs; exact .idle trivial (by rw [hp]; rfl) rfl rfl (fun _ => rfl)
    · cases hs
  | decide e =>
    simp only [step] at hs
    split at hs
    · rename_i hp
      split at hs <;> (cases hs; exact .idle trivial (by rw [hp]; rfl) rfl rfl (fun _ => rfl))
    · cases hs
  | complete p r =>
    simp only [step] at hs
    split at hs
    · rename_i k hk
      split at hs
      · rename_i mask cancelling hop
        split at hs
        · cases hs
          refine .complete (p := p) trivial (by simp [entries]) (by rw [hk]; simp [kind, hop]) (by dsimp only; rw [setPk_self]; rfl)
            (fun q hq => setPk_other _ _ hq) rfl
        · cases hs
      · cases hs
    · cases hs
  | fire p =>
    simp only [step] at hs
    split at hs
    · rename_i w hw
      split at hs
      · cases hs
        refine .idle trivial rfl rfl rfl ?_
        intro q
        by_cases e : q = p
        · subst e; dsimp only; rw [setPk_self, hw]; rfl
        · dsimp only; rw [setPk_other _ _ e]
      · cases hs
    · cases hs
  | callback p =>
    simp only [step] at hs
    split at hs
    · rename_i w hw
      split at hs
      · cases hs
        refine .idle trivial rfl rfl rfl ?_
        intro q
        by_cases e : q = p
        · subst e; dsimp only; rw [setPk_self, hw]; rfl
        · dsimp only; rw [setPk_other _ _ e]
      · cases hs
    · cases hs
  | callbackPost p fault =>
    simp only [step] at hs
    split at hs
    · rename_i hm
      cases hs
      by_cases hf : fault = none
      · have hk := hcb p (by simp [hm])
        rw [if_pos hf]
        refine .post (p := p) (.inr ⟨by rw [hk]; nofun, trivial⟩) ?_ (hlt p (by rw [hk]; nofun)) (by rw [hk]; nofun) rfl rfl
        simp [entries]
      · rw [if_neg hf]
        exact .idle trivial rfl rfl rfl (fun _ => rfl)
    · cases hs

/-- Kinds of packets are for ever. -/
theorem ent_wtb {s o s' p} (h : EI s) (he : Ent s o s') (hp : kind (s.c.pk p) = .wtb) : kind (s'.c.pk p) = .wtb := by
  cases he with
  | same _ _ h2 _ _ =>
    rw [h2 p ?_, hp]
    by_cases hq : p < s.c.next
    · exact hq
    · rw [h.low p (by omega)] at hp; cases hp
  | post _ _ _ _ h4 _ => rw [h4, hp]
  | @complete q _ _ h2 _ h4 _ => rw [h4 p (by rintro rfl; rw [hp] at h2; cases h2), hp]
  | @feed q _ _ _ h3 =>
    rw [h3, if_neg, hp]
    rintro ⟨rfl, b, hb⟩; rw [hp] at hb; cases hb
  | drop _ _ _ _ h3 =>
    rw [h3, if_neg, hp]
    rintro ⟨_, b, hb⟩; rw [hp] at hb; cases hb

theorem reach_cb {n P s tr} (h : Reach n P s tr) : EI s ∧ CbOk s := by
  induction h with
  | init =>
    refine ⟨⟨nofun, ?_, (reach_ti (.init (P := P) (threads := n))).low⟩, nofun⟩
    intro p b hb
    exfalso
    revert hb
    show kind (if p = NOTIFIER then Pkt.wakeup else Pkt.free) = _ → False
    split <;> nofun
  | @step s tr a s' o hr hp hs ih =>
    obtain ⟨hei, hcb⟩ := ih
    have he := step_ent hr hcb hs
    refine ⟨ei_ent hei he (reach_ti (hr.step hp hs)).low, ?_⟩
    have hw := fun p => ent_wtb (p := p) hei he
    have keep : s'.cb = s.cb → s'.cbPost = s.cbPost → CbOk s' := by
      intro h1 h2 p hm
      rw [h1, h2] at hm
      exact hw p (hcb p hm)
    cases a with
    | fire p =>
      simp only [step] at hs
      split at hs
      · rename_i w hwp
        split at hs
        · cases hs
          intro q hq
          dsimp only at hq
          rw [List.cons_append, List.mem_cons] at hq
          rcases hq with rfl | hq
          · exact hw q (by rw [hwp]; rfl)
          · exact hw q (hcb q hq)
        · cases hs
      · cases hs
    | callback p =>
      simp only [step] at hs
      split at hs
      · split at hs
        · rename_i hm
          cases hs
          intro q hq
          dsimp only at hq
          rw [List.mem_append, List.mem_cons] at hq
          apply hw q
          apply hcb q
          rw [List.mem_append]
          rcases hq with hq | rfl | hq
          · exact .inl (List.mem_of_mem_erase hq)
          · exact .inl hm
          · exact .inr hq
        · cases hs
      · cases hs
    | callbackPost p fault =>
      simp only [step] at hs
      split at hs
      · cases hs
        intro q hq
        dsimp only at hq
        rw [List.mem_append] at hq
        apply hw q
        apply hcb q
        rw [List.mem_append]
        rcases hq with hq | hq
        · exact .inl hq
        · exact .inr (List.mem_of_mem_erase hq)
      · cases hs
    | call t call =>
      simp only [step] at hs
      repeat' split at hs
      all_goals cases hs
      all_goals exact keep rfl rfl
    | go t fault =>
      simp only [step, goCall] at hs
      repeat' split at hs
      all_goals cases hs
      all_goals exact keep rfl rfl
    | wait fault =>
      simp only [step, goWait, waitFail] at hs
      repeat' split at hs
      all_goals cases hs
      all_goals exact keep rfl rfl
    | newPacket _ => simp only [step] at hs; repeat' split at hs
                     all_goals cases hs
                     all_goals exact keep rfl rfl
    | post _ _ => simp only [step] at hs; repeat' split at hs
                  all_goals cases hs
                  all_goals exact keep rfl rfl
    | notifyCas _ => simp only [step] at hs; repeat' split at hs
                     all_goals cases hs
                     all_goals exact keep rfl rfl
    | notifyPost _ _ => simp only [step] at hs; repeat' split at hs
                        all_goals cases hs
                        all_goals exact keep rfl rfl
    | waitBegin _ _ => simp only [step] at hs; repeat' split at hs
                       all_goals cases hs
                       all_goals exact keep rfl rfl
    | waitBusy => simp only [step] at hs; repeat' split at hs
                  all_goals cases hs
                  all_goals exact keep rfl rfl
    | get => simp only [step] at hs; repeat' split at hs
             all_goals cases hs
             all_goals exact keep rfl rfl
    | getFail _ => simp only [step] at hs; repeat' split at hs
                   all_goals cases hs
                   all_goals exact keep rfl rfl
    | decide _ => simp only [step] at hs; repeat' split at hs
                  all_goals cases hs
                  all_goals exact keep rfl rfl
    | complete _ _ => simp only [step] at hs; repeat' split at hs
                      all_goals cases hs
                      all_goals exact keep rfl rfl

theorem reach_ei {n P s tr} (h : Reach n P s tr) : EI s := (reach_cb h).1

theorem reach_ent {n P s tr a s' o} (h : Reach n P s tr) (hs : step n s a = some (s', o)) : Ent s o s' := step_ent h (reach_cb h).2 hs

/-- A socket's packet is among the completions exactly once if its operation is complete, and not at all otherwise. -/
theorem reach_ops {n P s tr p k} (h : Reach n P s tr) (hp : s.c.pk p = .socket k) :
    (s.phase.batch ++ s.c.port).count p = match k.op with | .done _ => 1 | _ => 0 := by
  have := (reach_ei h).once p _ (by rw [hp]; rfl)
  rw [show s.phase.batch ++ s.c.port = entries s from rfl, this]
  cases k.op <;> rfl

end Polling.IocpM
