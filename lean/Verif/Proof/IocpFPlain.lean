import Verif.Proof.IocpFSim

/- The steps outside of critical sections are steps of the coarse machine. -/

namespace Polling.IocpF
open Iocp IocpSpec IocpM

/-- `who` holds no mutex. -/
def Free (f : F) (who : Who) : Prop := ∀ p pos, f.sec p ≠ some (who, pos)

theorem free_out {f who} (h : Free f who) (p : PId) : outOf who (f.sec p) (f.m.c.pk p) = none := outOf_ne fun pos => h p pos

theorem free_pc {f t} (h : Free f (.thread t)) : (abs f).pc t = f.m.pc t := absPc_free fun _ p _ => free_out h p
theorem free_phase {f} (h : Free f .waiter) : (abs f).phase = f.m.phase := absPhase_free fun _ p _ => free_out h p

theorem pkt_lockable {tk b pos x} (h : PktOk tk b pos x) : (∃ s, x = .socket s) ∨ ∃ w, x = .waitable w := by
  cases x with
  | socket s => exact .inl ⟨s, rfl⟩
  | waitable w => exact .inr ⟨w, rfl⟩
  | _ => exact h.elim

theorem thread_kind {pc k p} (hs : pcSite pc = some (k, p)) : k ≠ .cb ∧ k ≠ .feed := by
  cases pc with
  | upd call u => cases u <;> cases hs <;> exact ⟨nofun, nofun⟩
  | set call q => cases call <;> cases hs; exact ⟨nofun, nofun⟩
  | del call q => cases hs; exact ⟨nofun, nofun⟩
  | _ => cases hs

theorem entry_some {k x} (h : (∃ s, x = .socket s) ∨ ∃ w, x = .waitable w) (hk : k ≠ .cb) : (entry k x).isSome = true := by
  rcases h with ⟨s, rfl⟩ | ⟨w, rfl⟩ <;> cases k <;> first | rfl | exact absurd rfl hk

/-- Nobody waits for a mutex it holds. -/
theorem free_thread {n f t} (hi : Inv n f) (h : locks f.m (.thread t) = false) : Free f (.thread t) := by
  intro p pos hs
  obtain ⟨h1, _, k, h2, _⟩ := hi.sec p _ pos hs
  have he := entry_some (pkt_lockable h1) (thread_kind h2).1
  unfold locks at h
  rw [show site f.m (.thread t) = some (k, p) from h2] at h
  dsimp only at h
  rw [he] at h; cases h

theorem free_waiter {n f} (hi : Inv n f) (h : locks f.m .waiter = false) : Free f .waiter := by
  intro p pos hs
  obtain ⟨h1, k, h2, _⟩ := hi.sec p _ pos hs
  have hk : k ≠ .cb := by rcases waiter_kind h2 with rfl | ⟨rfl, _⟩ <;> nofun
  have he := entry_some (pkt_lockable h1) hk
  unfold locks at h
  rw [show site f.m .waiter = some (k, p) from h2] at h
  dsimp only at h
  rw [he] at h; cases h

theorem free_of_pc {n f t} (hi : Inv n f) (h : pcSite (f.m.pc t) = none) : Free f (.thread t) := by
  refine free_thread hi ?_
  unfold locks
  rw [show site f.m (.thread t) = none from h]

theorem free_of_phase {n f} (hi : Inv n f) (h : phaseSite f.m.phase = none) : Free f .waiter := by
  refine free_waiter hi ?_
  unfold locks
  rw [show site f.m .waiter = none from h]

/-- The state of the coarse machine after a step that takes and releases no mutex. -/
theorem abs_of {f : F} {m' written' taken' X} (hX : absPk taken' f.sec m'.c.pk = X)
    (hout : ∀ w q, outOf w (f.sec q) (m'.c.pk q) = outOf w (f.sec q) (f.m.c.pk q)) :
    abs { m := m', sec := f.sec, buf := f.buf, written := written', taken := taken' } =
      { m' with c := { m'.c with pk := X }, pc := fun t => absPc t f.sec f.m.c.pk (m'.pc t), phase := absPhase f.sec f.m.c.pk m'.phase } := by
  unfold abs
  dsimp only
  rw [hX, absPhase_congr (hout .waiter)]
  congr 1
  funext t
  exact absPc_congr (hout (.thread t))

theorem absPc_upd {f t x} (h : Free f (.thread t)) :
    (fun u => absPc u f.sec f.m.c.pk (upd f.m.pc t x u)) = upd (abs f).pc t x := by
  funext u
  by_cases e : u = t
  · subst e; rw [upd_self, upd_self]; exact absPc_free fun _ p _ => free_out h p
  · rw [upd_other _ _ e, upd_other _ _ e]; rfl

theorem absPhase_new {f ph} (h : Free f .waiter) : absPhase f.sec f.m.c.pk ph = ph := absPhase_free fun _ p _ => free_out h p

/-- A step of a thread outside of critical sections. -/
theorem abs_thread {f c' t x X written'} (ht : Free f (.thread t)) (hX : absPk f.taken f.sec c'.pk = X)
    (hout : ∀ w q, outOf w (f.sec q) (c'.pk q) = outOf w (f.sec q) (f.m.c.pk q)) :
    abs { m := { f.m with c := c', pc := upd f.m.pc t x }, sec := f.sec, buf := f.buf, written := written', taken := f.taken } =
      { abs f with c := { c' with pk := X }, pc := upd (abs f).pc t x } := by
  rw [abs_of (m' := { f.m with c := c', pc := upd f.m.pc t x }) hX hout]
  dsimp only
  rw [absPc_upd ht]
  rfl

theorem abs_waiter {f c' ph X written' taken'} (hw : Free f .waiter) (hX : absPk taken' f.sec c'.pk = X)
    (hout : ∀ w q, outOf w (f.sec q) (c'.pk q) = outOf w (f.sec q) (f.m.c.pk q)) :
    abs { m := { f.m with c := c', phase := ph }, sec := f.sec, buf := f.buf, written := written', taken := taken' } =
      { abs f with c := { c' with pk := X }, phase := ph } := by
  rw [abs_of (m' := { f.m with c := c', phase := ph }) hX hout]
  dsimp only
  rw [absPhase_new hw]
  rfl

/- The invariant. -/

theorem inv_plain {n f m' written' taken'} (hi : Inv n f)
    (hpc : ∀ t, m'.pc t = f.m.pc t ∨ Free f (.thread t)) (hph : m'.phase = f.m.phase ∨ Free f .waiter)
    (hcb : ∀ p, p ∈ f.m.cb → p ∈ m'.cb)
    (hpost : ∀ p pos, f.sec p = some (.callback p, pos) → leaving f p = 1 → p ∈ f.m.cbPost → p ∈ m'.cbPost)
    (htk : ∀ q, taken' = some q → f.taken = some q ∧ m'.phase = f.m.phase)
    (htk' : ∀ q wp, f.sec q = some wp → (taken' = some q ↔ f.taken = some q))
    (hpk : ∀ q who pos, f.sec q = some (who, pos) → PktOk (decide (f.taken = some q)) (f.buf q) pos (f.m.c.pk q) →
      PktOk (decide (f.taken = some q)) (f.buf q) pos (m'.c.pk q))
    (hs : ∀ q s', m'.c.pk q = .socket s' → BufOk (written' q) (f.buf q) s'.op ∧ (taken' = some q → s'.inUse = false ∧ Taken s'.op (f.sec q)))
    (hwr : ∀ q, (∀ s, m'.c.pk q ≠ .socket s) → written' q = none) :
    Inv n { m := m', sec := f.sec, buf := f.buf, written := written', taken := taken' } := by
  refine ⟨?_, ?_, fun q s hq => (hs q s hq).1, hwr⟩
  · intro q who pos hq
    have hq : f.sec q = some (who, pos) := hq
    obtain ⟨h1, h2⟩ := hi.sec q who pos hq
    show PktOk (decide (taken' = some q)) (f.buf q) pos (m'.c.pk q) ∧ Here n m' taken' q pos who
    rw [decide_eq_decide.mpr (htk' q _ hq)]
    refine ⟨hpk q who pos hq h1, ?_⟩
    cases who with
    | thread t =>
      rcases hpc t with h | h
      · obtain ⟨a, k, b⟩ := h2; exact ⟨a, k, by rw [h]; exact b⟩
      · exact absurd hq (h q pos)
    | waiter =>
      rcases hph with h | h
      · obtain ⟨k, b, c, d⟩ := h2; exact ⟨k, by rw [h]; exact b, c, fun e => (htk' q _ hq).mpr (d e)⟩
      · exact absurd hq (h q pos)
    | callback r =>
      obtain ⟨rfl, ⟨a, b⟩ | ⟨a, b⟩⟩ := h2
      · exact ⟨rfl, .inl ⟨hcb _ a, b⟩⟩
      · refine ⟨rfl, .inr ⟨hpost r pos hq ?_ a, b⟩⟩
        unfold leaving
        rw [hq]
        rcases b with rfl | ⟨out, rfl⟩ <;> rfl
  · intro q hq
    have hq : taken' = some q := hq
    obtain ⟨h1, h2⟩ := htk q hq
    refine ⟨?_, fun s hsq => (hs q s hsq).2 hq⟩
    show ∃ w b, m'.phase = _
    rw [h2]
    exact (hi.tak q h1).1

/-- Packets, callbacks and the kernel are left alone. -/
theorem inv_same {n f m'} (hi : Inv n f)
    (hpc : ∀ t, m'.pc t = f.m.pc t ∨ Free f (.thread t)) (hph : m'.phase = f.m.phase ∨ (Free f .waiter ∧ f.taken = none))
    (hcb : m'.cb = f.m.cb) (hpost : m'.cbPost = f.m.cbPost) (hpk : m'.c.pk = f.m.c.pk) :
    Inv n { m := m', sec := f.sec, buf := f.buf, written := f.written, taken := f.taken } := by
  refine inv_plain hi hpc (hph.imp_right And.left) (fun p h => by rw [hcb]; exact h) (fun p _ _ _ h => by rw [hpost]; exact h) ?_
    (fun _ _ _ => Iff.rfl) (fun q who pos _ h => by rw [hpk]; exact h) ?_ ?_
  · intro q hq
    refine ⟨hq, ?_⟩
    rcases hph with h | ⟨_, h⟩
    · exact h
    · rw [h] at hq; cases hq
  · intro q s hs
    rw [hpk] at hs
    exact ⟨hi.buf q s hs, fun ht => (hi.tak q ht).2 s hs⟩
  · intro q hs
    rw [hpk] at hs
    exact hi.wr q hs

/-- As `inv_same`; the converted entry was processed. -/
theorem inv_wait {n f m'} (hi : Inv n f) (hpc : m'.pc = f.m.pc) (hw : Free f .waiter)
    (htk' : ∀ q wp, f.sec q = some wp → f.taken ≠ some q)
    (hcb : m'.cb = f.m.cb) (hpost : m'.cbPost = f.m.cbPost) (hpk : m'.c.pk = f.m.c.pk) :
    Inv n { m := m', sec := f.sec, buf := f.buf, written := f.written, taken := none } := by
  refine inv_plain hi (fun t => .inl (by rw [hpc])) (.inr hw) (fun p h => by rw [hcb]; exact h) (fun p _ _ _ h => by rw [hpost]; exact h) nofun
    (fun q wp h => ⟨nofun, fun h' => absurd h' (htk' q wp h)⟩) (fun q who pos _ h => by rw [hpk]; exact h) ?_ ?_
  · intro q s hs
    rw [hpk] at hs
    exact ⟨hi.buf q s hs, nofun⟩
  · intro q hs
    rw [hpk] at hs
    exact hi.wr q hs

/- Calls that leave the packets alone. -/

theorem update_non {fault c p} (h : entry .upd (c.pk p) = none) : update fault c p = (.err (.os 0), c, none) := by
  unfold update
  cases hx : c.pk p with
  | socket s => rw [hx] at h; cases h
  | waitable s => rw [hx] at h; cases h
  | _ => rfl

theorem setEvents_non {ev mode c p} (h : entry (.set ev mode) (c.pk p) = none) : setEvents c p ev mode = (true, c) := by
  unfold setEvents
  cases hx : c.pk p with
  | socket s => rw [hx] at h; cases h
  | waitable s => rw [hx] at h; cases h
  | _ => rfl

theorem beginDelete_non {fault c p} (h : entry .del (c.pk p) = none) : beginDelete fault c p = (.ok, c) := by
  unfold beginDelete
  cases hx : c.pk p with
  | socket s => rw [hx] at h; cases h
  | waitable s => rw [hx] at h; cases h
  | _ => rfl

theorem entry_non {k x tk sec} (h : entry k x = none) : entry k (absPkt tk sec x) = none := by
  cases x with
  | socket s =>
    have : ∃ y, absPkt tk sec (.socket s) = .socket y := by cases sec <;> exact ⟨_, rfl⟩
    obtain ⟨y, hy⟩ := this
    rw [hy]
    cases k <;> first | rfl | cases h
  | waitable s =>
    have : ∃ y, absPkt tk sec (.waitable s) = .waitable y := by cases sec <;> exact ⟨_, rfl⟩
    obtain ⟨y, hy⟩ := this
    rw [hy]
    cases k <;> first | rfl | cases h
  | free => cases sec <;> exact h
  | custom ev => cases sec <;> exact h
  | wakeup => cases sec <;> exact h

theorem ustep_plain {fault u} {c c' : Core} (h : ∀ p, uSite u = some p → entry .upd (c.pk p) = none ∧ entry .upd (c'.pk p) = none)
    (hc : c' = { c with pk := c'.pk }) :
    ustep fault c' u = ({ (ustep fault c u).1 with pk := c'.pk }, (ustep fault c u).2) ∧ (ustep fault c u).1.pk = c.pk := by
  have h1 : c'.pending = c.pending := by rw [hc]
  have h2 : c'.polling = c.polling := by rw [hc]
  cases u with
  | load p => refine ⟨?_, rfl⟩; simp only [ustep, h2]; rw [← hc]
  | run p => obtain ⟨a, b⟩ := h p rfl; refine ⟨?_, by simp only [ustep, update_non a]⟩; simp only [ustep, update_non a, update_non b]; rw [← hc]
  | drain q i p =>
    obtain ⟨a, b⟩ := h p rfl; refine ⟨?_, by simp only [ustep, update_non a]⟩; simp only [ustep, update_non a, update_non b]; rw [← hc]
  | push p =>
    simp only [ustep, h1]
    split
    · refine ⟨?_, rfl⟩
      rw [hc]
    · exact ⟨by rw [← hc], rfl⟩
  | pop p i =>
    simp only [ustep, h1]
    split
    · refine ⟨?_, rfl⟩
      rw [hc]
    · exact ⟨by rw [← hc], rfl⟩

/-- The state after a step outside of critical sections. -/
def after (f : F) (a : Act) (m' : S) : F :=
  { m := m', sec := f.sec, buf := f.buf, written := writtenAfter f a, taken := takenAfter f a }

/-- What is to be shown of such a step. -/
def Good (n : Nat) (f : F) (a : Act) (m' : S) (o : IObs) : Prop :=
  step n (abs f) a = some (abs (after f a m'), o) ∧ Inv n (after f a m')

theorem sim_call {n f t call m' o} (hi : Inv n f) (h : step n f.m (.call t call) = some (m', o)) : Good n f (.call t call) m' o := by
  simp only [step] at h
  split at h
  · cases h
  rename_i hn
  split at h
  rotate_left
  · cases h
  rename_i hpc
  have hfree : Free f (.thread t) := free_of_pc hi (by rw [hpc]; rfl)
  have hpc' : (abs f).pc t = .out := (free_pc hfree).trans hpc
  unfold Good
  simp only [step, if_neg hn, hpc']
  split at h
  · cases h
  rename_i h1
  rw [if_neg h1]
  split at h
  · rename_i h2
    rw [if_pos h2]
    cases h
    exact ⟨rfl, inv_same hi (fun _ => .inl rfl) (.inl rfl) rfl rfl rfl⟩
  rename_i h2
  rw [if_neg h2]
  split at h
  · rename_i h3
    rw [if_pos h3]
    cases h
    exact ⟨rfl, inv_same hi (fun _ => .inl rfl) (.inl rfl) rfl rfl rfl⟩
  rename_i h3
  rw [if_neg h3]
  cases h
  refine ⟨?_, inv_same hi (fun u => ?_) (.inl rfl) rfl rfl rfl⟩
  · congr 2
    exact (abs_thread (c' := f.m.c) (X := (abs f).c.pk) hfree rfl (fun _ _ => rfl)).symm
  · by_cases e : u = t
    · subst e; exact .inr hfree
    · exact .inl (upd_other _ _ e)

theorem upd_free {f : F} {t x} (h : Free f (.thread t)) : ∀ u, upd f.m.pc t x u = f.m.pc u ∨ Free f (.thread u) := by
  intro u
  by_cases e : u = t
  · subst e; exact .inr h
  · exact .inl (upd_other _ _ e)

/-- A thread moves, the packets stay. -/
theorem good_thread {n f t fault c' x} (hi : Inv n f) (hfree : Free f (.thread t)) (hc : c'.pk = f.m.c.pk) :
    abs (after f (.go t fault) { f.m with c := c', pc := upd f.m.pc t x }) = { abs f with c := { c' with pk := (abs f).c.pk }, pc := upd (abs f).pc t x } ∧
    Inv n (after f (.go t fault) { f.m with c := c', pc := upd f.m.pc t x }) :=
  ⟨abs_thread hfree (by rw [hc]; rfl) (fun _ _ => by rw [hc]), inv_same hi (upd_free hfree) (.inl rfl) rfl rfl hc⟩

/-- Unused packets. -/
theorem fresh {n P f tr} (hi : Inv n f) (hr : Reach n P (abs f) tr) :
    f.m.c.pk f.m.c.next = .free ∧ f.sec f.m.c.next = none ∧ f.taken ≠ some f.m.c.next ∧ f.written f.m.c.next = none := by
  have h1 : f.m.c.pk f.m.c.next = .free := by
    have : absPkt (decide (f.taken = some f.m.c.next)) (f.sec f.m.c.next) (f.m.c.pk f.m.c.next) = .free := (reach_ti hr).low _ (Nat.le_refl _)
    revert this
    generalize f.m.c.pk f.m.c.next = x
    generalize f.sec f.m.c.next = y
    intro h
    cases x with
    | free => rfl
    | socket s => cases y <;> cases h
    | waitable s => cases y <;> cases h
    | custom s => cases y <;> cases h
    | wakeup => cases y <;> cases h
  have h2 : f.sec f.m.c.next = none := by
    cases hs : f.sec f.m.c.next with
    | none => rfl
    | some wp =>
      have := (hi.sec _ wp.1 wp.2 hs).1
      rw [h1] at this
      exact this.elim
  refine ⟨h1, h2, fun ht => ?_, hi.wr _ (by rw [h1]; nofun)⟩
  obtain ⟨⟨w, b, hph⟩, _⟩ := hi.tak _ ht
  have hfree : Free f .waiter := by
    intro q pos hq
    have := one_section hi (show site f.m .waiter = some (.feed, f.m.c.next) by show phaseSite _ = _; rw [hph]; rfl) hq
    subst this
    rw [h2] at hq; cases hq
  have := (reach_ei hr).live f.m.c.next (by
    show f.m.c.next ∈ (abs f).phase.batch ++ _
    rw [free_phase hfree, hph]
    exact List.mem_append_left _ List.mem_cons_self)
  exact absurd this (Nat.lt_irrefl _)

/-- A new packet. -/
theorem new_pkt {n P f tr x} (hi : Inv n f) (hr : Reach n P (abs f) tr) (hx : ∀ s, x = .socket s → s.op = .none) :
    absPk f.taken f.sec (setPk f.m.c f.m.c.next x).pk = (setPk (abs f).c f.m.c.next x).pk ∧
    (∀ w q, outOf w (f.sec q) ((setPk f.m.c f.m.c.next x).pk q) = outOf w (f.sec q) (f.m.c.pk q)) ∧
    ∀ m', m'.c.pk = (setPk f.m.c f.m.c.next x).pk → m'.phase = f.m.phase → m'.cb = f.m.cb → m'.cbPost = f.m.cbPost →
      (∀ t, m'.pc t = f.m.pc t ∨ Free f (.thread t)) →
      Inv n { m := m', sec := f.sec, buf := f.buf, written := f.written, taken := f.taken } := by
  obtain ⟨h1, h2, h3, h4⟩ := fresh hi hr
  refine ⟨?_, ?_, ?_⟩
  · funext q
    by_cases e : q = f.m.c.next
    · subst e
      unfold absPk
      rw [setPk_self, setPk_self, h2]
      cases x with
      | socket s => exact congrArg Pkt.socket (baseS_none (hx s rfl))
      | _ => rfl
    · unfold absPk
      rw [setPk_other _ _ e, setPk_other _ _ e]; rfl
  · intro w q
    by_cases e : q = f.m.c.next
    · subst e
      rw [h2]; rfl
    · rw [setPk_other _ _ e]
  · intro m' hc hph hcb hpost hpc
    refine inv_plain hi hpc (.inl hph) (fun p h => by rw [hcb]; exact h) (fun p _ _ _ h => by rw [hpost]; exact h) (fun q hq => ⟨hq, hph⟩)
      (fun _ _ _ => Iff.rfl) ?_ ?_ ?_
    · intro q who pos hq hok
      have e : q ≠ f.m.c.next := by rintro rfl; rw [h2] at hq; cases hq
      rw [hc, setPk_other _ _ e]; exact hok
    · intro q s hs
      by_cases e : q = f.m.c.next
      · subst e
        rw [hc, setPk_self] at hs
        refine ⟨?_, fun ht => absurd ht h3⟩
        rw [hx s hs]; exact h4
      · rw [hc, setPk_other _ _ e] at hs
        exact ⟨hi.buf q s hs, fun ht => (hi.tak q ht).2 s hs⟩
    · intro q hs
      by_cases e : q = f.m.c.next
      · subst e; exact h4
      · rw [hc, setPk_other _ _ e] at hs; exact hi.wr q hs

theorem newPkt_op {k fd ev mode s} (h : newPkt k fd ev mode = .socket s) : s.op = .none := by
  unfold newPkt at h; split at h <;> cases h; rfl

theorem sim_go {n P f tr t fault m' o} (hi : Inv n f) (hr : Reach n P (abs f) tr) (hp : plain f (.go t fault) = true)
    (h : step n f.m (.go t fault) = some (m', o)) : Good n f (.go t fault) m' o := by
  have hl : locks f.m (.thread t) = false := by
    have : (!locks f.m (.thread t)) = true := hp
    simpa using this
  have hfree := free_thread hi hl
  have hpc' := free_pc hfree
  have hnon : ∀ k p, pcSite (f.m.pc t) = some (k, p) → entry k (f.m.c.pk p) = none := by
    intro k p hs
    unfold locks at hl
    rw [show site f.m (.thread t) = some (k, p) from hs] at hl
    dsimp only at hl
    rwa [Option.isSome_eq_false_iff, Option.isNone_iff_eq_none] at hl
  have hnon' : ∀ k p, pcSite (f.m.pc t) = some (k, p) → entry k ((abs f).c.pk p) = none := fun k p hs => entry_non (hnon k p hs)
  simp only [step] at h
  unfold Good
  simp only [step]
  split at h
  · cases h
  rename_i hn
  rw [if_neg hn]
  unfold goCall at h ⊢
  rw [hpc']
  cases hpc : f.m.pc t with
  | out => rw [hpc] at h; cases h
  | notify => rw [hpc] at h; cases h
  | prepare call =>
    rw [hpc] at h
    cases fault with
    | some e =>
      cases h
      have := good_thread (n := n) (t := t) (fault := some e) (c' := f.m.c) (x := .out) hi hfree rfl
      exact ⟨by rw [this.1]; rfl, this.2⟩
    | none =>
      cases h
      have := good_thread (n := n) (t := t) (fault := none) (c' := f.m.c) (x := .table call) hi hfree rfl
      exact ⟨by rw [this.1]; rfl, this.2⟩
  | ret call r =>
    rw [hpc] at h
    cases h
    have := good_thread (n := n) (t := t) (fault := fault) (c' := f.m.c) (x := .out) hi hfree rfl
    exact ⟨by rw [this.1]; rfl, this.2⟩
  | set call p =>
    rw [hpc] at h
    cases call with
    | modify k fd ev mode =>
      dsimp only at h ⊢
      rw [setEvents_non (hnon (.set ev mode) p (by rw [hpc]; rfl))] at h
      rw [setEvents_non (hnon' (.set ev mode) p (by rw [hpc]; rfl))]
      cases h
      have := good_thread (n := n) (t := t) (fault := fault) (c' := f.m.c) (x := .upd (.modify k fd ev mode) (.load p)) hi hfree rfl
      exact ⟨by rw [show (if true = true then Pc.upd (.modify k fd ev mode) (.load p) else Pc.ret (.modify k fd ev mode) .ok) =
        .upd (.modify k fd ev mode) (.load p) from rfl, this.1]; rfl, this.2⟩
    | add => cases h
    | delete => cases h
  | del call p =>
    rw [hpc] at h
    dsimp only at h ⊢
    rw [beginDelete_non (hnon .del p (by rw [hpc]; rfl))] at h
    rw [beginDelete_non (hnon' .del p (by rw [hpc]; rfl))]
    cases h
    have := good_thread (n := n) (t := t) (fault := fault) (c' := f.m.c) (x := .out) hi hfree rfl
    exact ⟨by rw [this.1]; rfl, this.2⟩
  | upd call u =>
    rw [hpc] at h
    dsimp only at h ⊢
    have hu := ustep_plain (fault := fault) (u := u) (c := f.m.c) (c' := (abs f).c) (by
      intro p hp'
      exact ⟨hnon .upd p (by rw [hpc]; show Option.map _ (uSite u) = _; rw [hp']; rfl),
        hnon' .upd p (by rw [hpc]; show Option.map _ (uSite u) = _; rw [hp']; rfl)⟩) rfl
    rw [hu.1]
    have hpk := hu.2
    revert h hpk
    generalize ustep fault f.m.c u = r
    obtain ⟨c', out, o'⟩ := r
    intro h hpk
    have hpk : c'.pk = f.m.c.pk := hpk
    cases out with
    | more u' =>
      cases h
      have := good_thread (n := n) (t := t) (fault := fault) (c' := c') (x := .upd call u') hi hfree hpk
      exact ⟨by rw [this.1], this.2⟩
    | done r' =>
      cases h
      have := good_thread (n := n) (t := t) (fault := fault) (c' := c') (x := .ret call r') hi hfree hpk
      exact ⟨by rw [this.1], this.2⟩
  | table call =>
    rw [hpc] at h
    cases call with
    | add k fd ev mode =>
      dsimp only at h ⊢
      rw [show (abs f).c.table k fd = f.m.c.table k fd from rfl]
      cases htb : f.m.c.table k fd with
      | some q =>
        rw [htb] at h
        cases h
        have := good_thread (n := n) (t := t) (fault := fault) (c' := f.m.c) (x := .out) hi hfree rfl
        exact ⟨by rw [this.1]; rfl, this.2⟩
      | none =>
        rw [htb] at h
        cases h
        obtain ⟨h1, h2, h3⟩ := new_pkt (x := newPkt k fd ev mode) hi hr (fun s hs => newPkt_op hs)
        refine ⟨?_, h3 _ rfl rfl rfl rfl (upd_free hfree)⟩
        refine congrArg (fun z => some (z, _)) ?_
        exact (abs_thread (c' := { setPk f.m.c f.m.c.next (newPkt k fd ev mode) with
          next := f.m.c.next + 1, table := fun k' x => if k' = k ∧ x = fd then some f.m.c.next else f.m.c.table k' x })
          hfree h1 h2).symm
    | modify k fd ev mode =>
      dsimp only at h ⊢
      rw [show (abs f).c.table k fd = f.m.c.table k fd from rfl]
      cases htb : f.m.c.table k fd with
      | none =>
        rw [htb] at h
        cases h
        have := good_thread (n := n) (t := t) (fault := fault) (c' := f.m.c) (x := .out) hi hfree rfl
        exact ⟨by rw [this.1]; rfl, this.2⟩
      | some q =>
        rw [htb] at h
        cases h
        have := good_thread (n := n) (t := t) (fault := fault) (c' := f.m.c) (x := .set (.modify k fd ev mode) q) hi hfree rfl
        exact ⟨by rw [this.1]; rfl, this.2⟩
    | delete k fd =>
      dsimp only at h ⊢
      rw [show (abs f).c.table k fd = f.m.c.table k fd from rfl]
      cases htb : f.m.c.table k fd with
      | none =>
        rw [htb] at h
        cases h
        have := good_thread (n := n) (t := t) (fault := fault) (c' := f.m.c) (x := .out) hi hfree rfl
        exact ⟨by rw [this.1]; rfl, this.2⟩
      | some q =>
        rw [htb] at h
        cases h
        have := good_thread (n := n) (t := t) (fault := fault)
          (c' := { f.m.c with table := fun k' x => if k' = k ∧ x = fd then none else f.m.c.table k' x }) (x := .del (.delete k fd) q) hi hfree rfl
        exact ⟨by rw [this.1]; rfl, this.2⟩

theorem abs_same {f : F} {c' : Core} {X} (hX : absPk f.taken f.sec c'.pk = X)
    (hout : ∀ w q, outOf w (f.sec q) (c'.pk q) = outOf w (f.sec q) (f.m.c.pk q)) :
    abs { m := { f.m with c := c' }, sec := f.sec, buf := f.buf, written := f.written, taken := f.taken } =
      { abs f with c := { c' with pk := X } } :=
  abs_of (m' := { f.m with c := c' }) hX hout

theorem sim_newPacket {n P f tr ev m' o} (hi : Inv n f) (hr : Reach n P (abs f) tr) (h : step n f.m (.newPacket ev) = some (m', o)) :
    Good n f (.newPacket ev) m' o := by
  simp only [step] at h
  split at h
  · cases h
  rename_i hb
  cases h
  obtain ⟨h1, h2, h3⟩ := new_pkt (x := .custom ev) hi hr nofun
  refine ⟨?_, h3 _ rfl rfl rfl rfl (fun _ => .inl rfl)⟩
  simp only [step]
  rw [if_neg hb]
  refine congrArg (fun z => some (z, _)) ?_
  exact (abs_same (c' := { setPk f.m.c f.m.c.next (.custom ev) with next := f.m.c.next + 1 }) h1 h2).symm

theorem abs_custom {f : F} {p ev} (h : f.m.c.pk p = .custom ev) : (abs f).c.pk p = .custom ev := by
  show absPkt _ (f.sec p) (f.m.c.pk p) = _
  rw [h]
  cases f.sec p <;> rfl

theorem sim_post {n f p fault m' o} (hi : Inv n f) (h : step n f.m (.post p fault) = some (m', o)) : Good n f (.post p fault) m' o := by
  simp only [step] at h
  split at h
  rotate_left
  · cases h
  rename_i ev hp
  have hp' := abs_custom hp
  split at h
  · cases h
    refine ⟨?_, inv_same hi (fun _ => .inl rfl) (.inl rfl) rfl rfl rfl⟩
    simp only [step]
    rw [hp']
    rfl
  · cases h
    refine ⟨?_, inv_same hi (fun _ => .inl rfl) (.inl rfl) rfl rfl rfl⟩
    simp only [step]
    rw [hp']
    rfl

theorem sim_notifyCas {n f t m' o} (hi : Inv n f) (h : step n f.m (.notifyCas t) = some (m', o)) : Good n f (.notifyCas t) m' o := by
  simp only [step] at h
  split at h
  · cases h
  rename_i hn
  split at h
  rotate_left
  · cases h
  rename_i hpc
  have hfree : Free f (.thread t) := free_of_pc hi (by rw [hpc]; rfl)
  have hpc' : (abs f).pc t = .out := (free_pc hfree).trans hpc
  unfold Good
  simp only [step]
  rw [if_neg hn, hpc']
  dsimp only
  rw [show (abs f).notified = f.m.notified from rfl]
  split at h
  · rename_i hb
    cases h
    rw [if_pos hb]
    exact ⟨rfl, inv_same hi (fun _ => .inl rfl) (.inl rfl) rfl rfl rfl⟩
  · rename_i hb
    cases h
    rw [if_neg hb]
    refine ⟨?_, inv_same hi (upd_free hfree) (.inl rfl) rfl rfl rfl⟩
    refine congrArg (fun z => some (z, _)) ?_
    refine Eq.trans ?_ (abs_of (f := f) (m' := { f.m with notified := true, pc := upd f.m.pc t .notify }) (X := (abs f).c.pk) rfl (fun _ _ => rfl)).symm
    dsimp only
    rw [absPc_upd hfree]
    rfl

theorem sim_notifyPost {n f t fault m' o} (hi : Inv n f) (h : step n f.m (.notifyPost t fault) = some (m', o)) :
    Good n f (.notifyPost t fault) m' o := by
  simp only [step] at h
  split at h
  rotate_left
  · cases h
  rename_i hpc
  have hfree : Free f (.thread t) := free_of_pc hi (by rw [hpc]; rfl)
  have hpc' : (abs f).pc t = .notify := (free_pc hfree).trans hpc
  unfold Good
  simp only [step]
  rw [hpc']
  dsimp only
  cases fault with
  | some e =>
    cases h
    refine ⟨?_, inv_same hi (upd_free hfree) (.inl rfl) rfl rfl rfl⟩
    refine congrArg (fun z => some (z, _)) ?_
    exact (abs_thread (c' := f.m.c) (X := (abs f).c.pk) hfree rfl (fun _ _ => rfl)).symm
  | none =>
    cases h
    refine ⟨?_, inv_same hi (upd_free hfree) (.inl rfl) rfl rfl rfl⟩
    refine congrArg (fun z => some (z, _)) ?_
    exact (abs_thread (c' := { f.m.c with port := f.m.c.port ++ [NOTIFIER] }) (X := (abs f).c.pk) hfree rfl (fun _ _ => rfl)).symm

theorem not_taken {n f} (hi : Inv n f) (h : ∀ w p b, f.m.phase ≠ .feed w (p :: b)) : f.taken = none := by
  cases ht : f.taken with
  | none => rfl
  | some p =>
    obtain ⟨⟨w, b, hp⟩, _⟩ := hi.tak p ht
    exact absurd hp (h w p b)

theorem sim_waitBegin {n f timed cap m' o} (hi : Inv n f) (h : step n f.m (.waitBegin timed cap) = some (m', o)) :
    Good n f (.waitBegin timed cap) m' o := by
  simp only [step] at h
  split at h
  rotate_left
  · cases h
  rename_i hph
  have hfree : Free f .waiter := free_of_phase hi (by rw [hph]; rfl)
  have hph' := (free_phase hfree).trans hph
  unfold Good
  simp only [step]
  rw [hph']
  dsimp only
  split at h
  · cases h
  rename_i hc
  rw [if_neg hc]
  cases h
  refine ⟨?_, inv_same hi (fun _ => .inl rfl) (.inr ⟨hfree, not_taken hi (by rw [hph]; nofun)⟩) rfl rfl rfl⟩
  refine congrArg (fun z => some (z, _)) ?_
  exact (abs_waiter (c' := f.m.c) (X := (abs f).c.pk) hfree rfl (fun _ _ => rfl)).symm

theorem resumePhase_busy {ph out} (h : ph ≠ .idle) : resumePhase ph out ≠ .idle := by
  unfold resumePhase
  split <;> try (split <;> nofun)
  all_goals first | exact h | nofun

theorem sim_waitBusy {n f m' o} (hi : Inv n f) (h : step n f.m .waitBusy = some (m', o)) : Good n f .waitBusy m' o := by
  simp only [step] at h
  split at h
  · cases h
  rename_i hph
  cases h
  refine ⟨?_, inv_same hi (fun _ => .inl rfl) (.inl rfl) rfl rfl rfl⟩
  have hph' : (abs f).phase ≠ .idle := by
    show absPhase f.sec f.m.c.pk f.m.phase ≠ .idle
    unfold absPhase
    split
    · split
      · exact resumePhase_busy hph
      · exact hph
    · exact hph
  simp only [step]
  rfl

theorem sim_get {n f m' o} (hi : Inv n f) (h : step n f.m .get = some (m', o)) : Good n f .get m' o := by
  simp only [step] at h
  split at h
  rotate_left
  · cases h
  rename_i w hph
  have hfree : Free f .waiter := free_of_phase hi (by rw [hph]; rfl)
  have hph' := (free_phase hfree).trans hph
  unfold Good
  simp only [step]
  rw [hph']
  dsimp only
  split at h
  rotate_left
  · cases h
  rename_i hc
  rw [show (abs f).c.port = f.m.c.port from rfl, if_pos hc]
  cases h
  refine ⟨?_, inv_same hi (fun _ => .inl rfl) (.inr ⟨hfree, not_taken hi (by rw [hph]; nofun)⟩) rfl rfl rfl⟩
  refine congrArg (fun z => some (z, _)) ?_
  exact (abs_waiter (c' := { f.m.c with port := f.m.c.port.drop w.cap }) (X := (abs f).c.pk) hfree rfl (fun _ _ => rfl)).symm

theorem sim_getFail {n f e m' o} (hi : Inv n f) (h : step n f.m (.getFail e) = some (m', o)) : Good n f (.getFail e) m' o := by
  simp only [step] at h
  split at h
  rotate_left
  · cases h
  rename_i w hph
  have hfree : Free f .waiter := free_of_phase hi (by rw [hph]; rfl)
  have hph' := (free_phase hfree).trans hph
  unfold Good
  simp only [step]
  rw [hph']
  dsimp only
  cases h
  refine ⟨?_, inv_same hi (fun _ => .inl rfl) (.inr ⟨hfree, not_taken hi (by rw [hph]; nofun)⟩) rfl rfl rfl⟩
  refine congrArg (fun z => some (z, _)) ?_
  exact (abs_waiter (c' := f.m.c) (X := (abs f).c.pk) hfree rfl (fun _ _ => rfl)).symm

theorem sim_decide {n f x m' o} (hi : Inv n f) (h : step n f.m (.decide x) = some (m', o)) : Good n f (.decide x) m' o := by
  simp only [step] at h
  split at h
  rotate_left
  · cases h
  rename_i w hph
  have hfree : Free f .waiter := free_of_phase hi (by rw [hph]; rfl)
  have hph' := (free_phase hfree).trans hph
  unfold Good
  simp only [step]
  rw [hph']
  dsimp only
  split at h
  · rename_i hc
    rw [if_pos hc]
    cases h
    refine ⟨?_, inv_same hi (fun _ => .inl rfl) (.inr ⟨hfree, not_taken hi (by rw [hph]; nofun)⟩) rfl rfl rfl⟩
    refine congrArg (fun z => some (z, _)) ?_
    exact (abs_waiter (c' := f.m.c) (X := (abs f).c.pk) hfree rfl (fun _ _ => rfl)).symm
  · rename_i hc
    rw [if_neg hc]
    cases h
    refine ⟨?_, inv_same hi (fun _ => .inl rfl) (.inr ⟨hfree, not_taken hi (by rw [hph]; nofun)⟩) rfl rfl rfl⟩
    refine congrArg (fun z => some (z, _)) ?_
    exact (abs_waiter (c' := f.m.c) (X := (abs f).c.pk) hfree rfl (fun _ _ => rfl)).symm

theorem sim_callbackPost {n f p fault m' o} (hi : Inv n f) (hp : plain f (.callbackPost p fault) = true)
    (h : step n f.m (.callbackPost p fault) = some (m', o)) : Good n f (.callbackPost p fault) m' o := by
  have hp : leaving f p < f.m.cbPost.count p := of_decide_eq_true hp
  simp only [step] at h
  split at h
  rotate_left
  · cases h
  rename_i hm
  cases h
  have hpk : (if fault = none then { f.m.c with port := f.m.c.port ++ [p] } else f.m.c).pk = f.m.c.pk := by split <;> rfl
  refine ⟨?_, inv_plain hi (fun _ => .inl rfl) (.inl rfl) (fun _ h => h) ?_ (fun q h => ⟨h, rfl⟩) (fun _ _ _ => Iff.rfl) ?_ ?_ ?_⟩
  · simp only [step]
    rw [show (abs f).cbPost = f.m.cbPost from rfl, if_pos hm]
    refine congrArg (fun z => some (z, _)) ?_
    refine Eq.trans ?_ (abs_of (f := f)
      (m' := { f.m with c := if fault = none then { f.m.c with port := f.m.c.port ++ [p] } else f.m.c, cbPost := f.m.cbPost.erase p })
      (X := (abs f).c.pk) (by dsimp only; rw [hpk]; rfl) (fun _ _ => by dsimp only; rw [hpk])).symm
    dsimp only
    by_cases hf : fault = none
    · rw [if_pos hf, if_pos hf]; rfl
    · rw [if_neg hf, if_neg hf]; rfl
  · intro q pos hq hl hmq
    show q ∈ f.m.cbPost.erase p
    by_cases e : q = p
    · subst e
      rw [hl] at hp
      refine List.count_pos_iff.mp ?_
      rw [List.count_erase_self]
      omega
    · exact (List.mem_erase_of_ne e).mpr hmq
  · intro q who pos _ h; dsimp only; rw [hpk]; exact h
  · intro q s hs
    dsimp only at hs
    rw [hpk] at hs
    exact ⟨hi.buf q s hs, fun ht => (hi.tak q ht).2 s hs⟩
  · intro q hs
    dsimp only at hs
    rw [hpk] at hs
    exact hi.wr q hs

/- Changes of one packet by the kernel, or by an entry that is dropped. -/

theorem absPk_set {taken : Option PId} {sec pk c p x X} (hc : c.pk = pk) (h : absPkt (decide (taken = some p)) (sec p) x = X) :
    absPk taken sec (setPk c p x).pk = fun q => if q = p then X else absPk taken sec pk q := by
  funext q
  unfold absPk
  by_cases e : q = p
  · subst e; rw [setPk_self, if_pos rfl]; exact h
  · rw [setPk_other _ _ e, if_neg e, hc]

theorem outOf_set {sec : PId → Option (Who × Pos)} {c : Core} {p x} (h : ∀ w, outOf w (sec p) x = outOf w (sec p) (c.pk p)) (w q) :
    outOf w (sec q) ((setPk c p x).pk q) = outOf w (sec q) (c.pk q) := by
  by_cases e : q = p
  · subst e; rw [setPk_self]; exact h w
  · rw [setPk_other _ _ e]

theorem outOf_sock {y u o} {k : Sock} (w : Who) : outOf w y (.socket { k with inUse := u, op := o }) = outOf w y (.socket k) := by
  cases y with
  | none => rfl
  | some wp =>
    obtain ⟨who, pos⟩ := wp
    show (if who = w then _ else _) = if who = w then _ else _
    rw [finishS_out]

theorem outOf_wtb {y r} {k : Wtb} (w : Who) : outOf w y (.waitable { k with registered := r }) = outOf w y (.waitable k) := by
  cases y with
  | none => rfl
  | some wp =>
    obtain ⟨who, pos⟩ := wp
    show (if who = w then _ else _) = if who = w then _ else _
    rw [finishW_out]

theorem abs_sock {f : F} {p k} (h : f.m.c.pk p = .socket k) (ht : f.taken ≠ some p) :
    ∃ y, (abs f).c.pk p = .socket y ∧ y.op = k.op ∧
      (∀ o, absPkt (decide (f.taken = some p)) (f.sec p) (.socket { k with op := o }) = .socket { y with op := o }) ∧
      (∀ o, absPkt (decide (f.taken = some p)) (f.sec p) (.socket { k with inUse := false, op := o }) = .socket { y with inUse := false, op := o }) := by
  show ∃ y, absPkt _ (f.sec p) (f.m.c.pk p) = _ ∧ _
  rw [decide_eq_false ht, h]
  cases f.sec p with
  | none => exact ⟨_, rfl, rfl, fun _ => rfl, fun _ => rfl⟩
  | some wp =>
    obtain ⟨who, pos⟩ := wp
    refine ⟨_, rfl, absS_keep _ _, fun o => ?_, fun o => ?_⟩
    · exact congrArg Pkt.socket (absS_op pos k o)
    · refine congrArg Pkt.socket ?_
      show absS pos { ({ k with op := o } : Sock) with inUse := false } = _
      rw [absS_inUse, absS_op]
      rfl

theorem sockOk_done {k b pos r mask c} (h : SockOk false k b pos) (ho : k.op = .inFlight mask c) : SockOk false { k with op := .done r } b pos := by
  have h1 : k.op ≠ .none := by rw [ho]; nofun
  cases pos <;> first | exact h | skip
  case info mask => exact absurd h.2.2.2.2 h1
  case iosb mask => exact absurd h.2.2.2.2 h1
  case ioctl mask => exact absurd h.2.2.2.2.1 h1
  case pending d => cases d <;> exact h
  case cancelIo d => cases d <;> exact h
  case key => exact absurd h.1 nofun
  all_goals exact absurd h.1.1 nofun

theorem taken_or {op y} (h : Taken op y) : op = .none ∨ isDone op = true := by
  unfold Taken at h
  split at h
  · split at h
    · exact .inl h
    · exact .inr h
  · exact .inr h

theorem sim_complete {n f p r m' o} (hi : Inv n f) (hp : plain f (.complete p r) = true)
    (h : step n f.m (.complete p r) = some (m', o)) : Good n f (.complete p r) m' o := by
  have hw : f.written p = some r := of_decide_eq_true hp
  simp only [step] at h
  split at h
  rotate_left
  · cases h
  rename_i k hk
  split at h
  rotate_left
  · cases h
  rename_i mask cancelling hop
  split at h
  rotate_left
  · cases h
  rename_i hposs
  cases h
  have ht : f.taken ≠ some p := by
    intro ht
    rcases taken_or ((hi.tak p ht).2 k hk).2 with h | h <;> rw [hop] at h <;> cases h
  obtain ⟨y, hy, hyo, hX, _⟩ := abs_sock hk ht
  have hout := outOf_set (sec := f.sec) (c := f.m.c) (p := p) (x := .socket { k with op := .done r })
    (fun w => by rw [hk]; exact outOf_sock (u := k.inUse) w)
  have hb := hi.buf p k hk
  rw [hop, hw] at hb
  constructor
  · simp only [step]
    rw [hy]
    dsimp only
    rw [hyo, hop]
    dsimp only
    rw [if_pos hposs]
    refine congrArg (fun z => some (z, _)) ?_
    refine Eq.trans ?_ (abs_of (f := f)
      (m' := { f.m with c := { setPk f.m.c p (.socket { k with op := .done r }) with port := f.m.c.port ++ [p] } })
      (absPk_set rfl (hX (.done r))) hout).symm
    rfl
  · refine inv_plain hi (fun _ => .inl rfl) (.inl rfl) (fun _ h => h) (fun _ _ _ _ h => h) (fun q h => ⟨h, rfl⟩) (fun _ _ _ => Iff.rfl) ?_ ?_ ?_
    · intro q who pos hq hok
      dsimp only
      by_cases e : q = p
      · subst e
        rw [setPk_self]
        rw [hk, decide_eq_false ht] at hok
        rw [decide_eq_false ht]
        exact sockOk_done hok hop
      · rw [setPk_other _ _ e]; exact hok
    · intro q s hs
      dsimp only at hs
      show BufOk (put f.written p none q) (f.buf q) s.op ∧ _
      by_cases e : q = p
      · subst e
        rw [setPk_self] at hs
        cases hs
        rw [put_self]
        exact ⟨⟨rfl, hb.2⟩, fun h => absurd h ht⟩
      · rw [setPk_other _ _ e] at hs
        rw [put_other _ _ e]
        exact ⟨hi.buf q s hs, fun h => (hi.tak q h).2 s hs⟩
    · intro q hs
      show put f.written p none q = none
      by_cases e : q = p
      · subst e; exact put_self _ _ _
      · rw [put_other _ _ e]
        refine hi.wr q fun s h => hs s ?_
        dsimp only
        rw [setPk_other _ _ e]; exact h

theorem sim_fire {n f p m' o} (hi : Inv n f) (h : step n f.m (.fire p) = some (m', o)) : Good n f (.fire p) m' o := by
  simp only [step] at h
  split at h
  rotate_left
  · cases h
  rename_i w hw
  split at h
  rotate_left
  · cases h
  rename_i hreg
  cases h
  have hab : ∃ y, (abs f).c.pk p = .waitable y ∧ y.registered = true ∧
      absPkt (decide (f.taken = some p)) (f.sec p) (.waitable { w with registered := false }) = .waitable { y with registered := false } := by
    show ∃ y, absPkt _ (f.sec p) (f.m.c.pk p) = _ ∧ _
    rw [hw]
    cases f.sec p with
    | none => exact ⟨_, rfl, hreg, rfl⟩
    | some wp =>
      obtain ⟨who, pos⟩ := wp
      exact ⟨_, rfl, (absW_keep _ _).trans hreg, congrArg Pkt.waitable (absW_registered pos w false)⟩
  obtain ⟨y, hy, hyr, hX⟩ := hab
  have hout := outOf_set (sec := f.sec) (c := f.m.c) (p := p) (x := .waitable { w with registered := false })
    (fun x => by rw [hw]; exact outOf_wtb x)
  constructor
  · simp only [step]
    rw [hy]
    dsimp only
    rw [if_pos hyr]
    refine congrArg (fun z => some (z, _)) ?_
    refine Eq.trans ?_ (abs_of (f := f)
      (m' := { f.m with c := setPk f.m.c p (.waitable { w with registered := false }), cb := p :: f.m.cb })
      (absPk_set rfl hX) hout).symm
    rfl
  · refine inv_plain hi (fun _ => .inl rfl) (.inl rfl) (fun _ h => List.mem_cons_of_mem _ h) (fun _ _ _ _ h => h) (fun q h => ⟨h, rfl⟩)
      (fun _ _ _ => Iff.rfl) ?_ ?_ ?_
    · intro q who pos hq hok
      dsimp only
      by_cases e : q = p
      · subst e
        rw [setPk_self]
        rw [hw] at hok
        cases pos <;> exact hok
      · rw [setPk_other _ _ e]; exact hok
    · intro q s hs
      dsimp only at hs
      by_cases e : q = p
      · subst e
        rw [setPk_self] at hs
        cases hs
      · rw [setPk_other _ _ e] at hs
        exact ⟨hi.buf q s hs, fun h => (hi.tak q h).2 s hs⟩
    · intro q hs
      by_cases e : q = p
      · subst e; exact hi.wr q (by rw [hw]; nofun)
      · refine hi.wr q fun s h => hs s ?_
        dsimp only
        rw [setPk_other _ _ e]; exact h

/-- A step of the thread in `wait` that leaves the packets alone. -/
theorem good_wait {n f fault c' ph nt} (hi : Inv n f) (hfree : Free f .waiter) (hX : absPk none f.sec f.m.c.pk = (abs f).c.pk)
    (htk : ∀ q wp, f.sec q = some wp → f.taken ≠ some q) (hc : c'.pk = f.m.c.pk) :
    abs (after f (.wait fault) { f.m with c := c', phase := ph, notified := nt }) =
      { abs f with c := { c' with pk := (abs f).c.pk }, phase := ph, notified := nt } ∧
    Inv n (after f (.wait fault) { f.m with c := c', phase := ph, notified := nt }) := by
  refine ⟨?_, inv_wait hi rfl hfree htk rfl rfl hc⟩
  refine (abs_of (f := f) (m' := { f.m with c := c', phase := ph, notified := nt }) (X := (abs f).c.pk)
    (by dsimp only; rw [hc]; exact hX) (fun _ _ => by dsimp only; rw [hc])).trans ?_
  dsimp only
  rw [absPhase_new hfree]
  rfl

/-- No completion entry was converted. -/
theorem good_wait' {n f fault c' ph nt} (hi : Inv n f) (hfree : Free f .waiter) (ht : f.taken = none) (hc : c'.pk = f.m.c.pk) :
    abs (after f (.wait fault) { f.m with c := c', phase := ph, notified := nt }) =
      { abs f with c := { c' with pk := (abs f).c.pk }, phase := ph, notified := nt } ∧
    Inv n (after f (.wait fault) { f.m with c := c', phase := ph, notified := nt }) :=
  good_wait hi hfree (by show _ = absPk f.taken f.sec f.m.c.pk; rw [ht]) (fun _ _ _ => by rw [ht]; nofun) hc

theorem sockOk_drop {k b pos} (h : SockOk false k b pos) (h1 : isDone k.op = true) : SockOk false { k with inUse := false, op := .none } b pos := by
  have h1 : k.op ≠ .none := by intro e; rw [e] at h1; cases h1
  cases pos <;> first | exact h | skip
  case info mask => exact absurd h.2.2.2.2 h1
  case iosb mask => exact absurd h.2.2.2.2 h1
  case ioctl mask => exact absurd h.2.2.2.2.1 h1
  case pending d => cases d <;> exact h
  case cancelIo d => cases d <;> exact h
  case key => exact absurd h.1 nofun
  all_goals exact absurd h.1.1 nofun

/-- The operation of a completion entry is complete. -/
theorem entry_done {n P f tr p k} (hr : Reach n P (abs f) tr) (hk : f.m.c.pk p = .socket k) (ht : f.taken ≠ some p)
    (hm : p ∈ (abs f).phase.batch) : isDone k.op = true := by
  obtain ⟨y, hy, hyo, _⟩ := abs_sock hk ht
  have hc := reach_ops hr hy
  have := List.count_pos_iff.mpr (List.mem_append_left (abs f).c.port hm)
  rw [hc, hyo] at this
  cases hop : k.op with
  | done r => rfl
  | none => rw [hop] at this; exact absurd this (Nat.lt_irrefl 0)
  | inFlight m c => rw [hop] at this; exact absurd this (Nat.lt_irrefl 0)

theorem sim_drop {n P f tr fault w e p batch} (hi : Inv n f) (hr : Reach n P (abs f) tr) (hph : f.m.phase = .drain w e (p :: batch)) :
    { abs f with c := dropEntry (abs f).c p, phase := .drain w e batch } =
      abs (after f (.wait fault) { f.m with c := dropEntry f.m.c p, phase := .drain w e batch }) ∧
    Inv n (after f (.wait fault) { f.m with c := dropEntry f.m.c p, phase := .drain w e batch }) := by
  have hfree : Free f .waiter := free_of_phase hi (by rw [hph]; rfl)
  have ht : f.taken = none := not_taken hi (by rw [hph]; nofun)
  have hph' := (free_phase hfree).trans hph
  cases hx : f.m.c.pk p with
  | socket k =>
    have htp : f.taken ≠ some p := by rw [ht]; nofun
    have hdone := entry_done hr hx htp (by rw [hph']; exact List.mem_cons_self)
    obtain ⟨y, hy, hyo, _, hX⟩ := abs_sock hx htp
    have hd : dropEntry f.m.c p = setPk f.m.c p (.socket { k with inUse := false, op := .none }) := by unfold dropEntry; rw [hx]
    have hd' : dropEntry (abs f).c p = setPk (abs f).c p (.socket { y with inUse := false, op := .none }) := by unfold dropEntry; rw [hy]
    have hout := outOf_set (sec := f.sec) (c := f.m.c) (p := p) (x := .socket { k with inUse := false, op := .none })
      (fun w => by rw [hx]; exact outOf_sock w)
    rw [hd, hd']
    constructor
    · have h0 := abs_of (f := f) (written' := f.written) (taken' := f.taken)
        (m' := { f.m with c := setPk f.m.c p (.socket { k with inUse := false, op := .none }), phase := .drain w e batch })
        (absPk_set rfl (hX .none)) hout
      refine Eq.trans ?_ (h0.symm.trans ?_)
      · rfl
      · unfold after
        rw [ht]; rfl
    · refine inv_plain hi (fun _ => .inl rfl) (.inr hfree) (fun _ h => h) (fun _ _ _ _ h => h) nofun
        (fun q wp _ => ⟨nofun, fun h => by rw [ht] at h; cases h⟩) ?_ ?_ ?_
      · intro q who pos hq hok
        dsimp only
        by_cases e : q = p
        · subst e
          rw [setPk_self]
          rw [hx, decide_eq_false htp] at hok
          rw [decide_eq_false htp]
          exact sockOk_drop hok hdone
        · rw [setPk_other _ _ e]; exact hok
      · intro q s hs
        dsimp only at hs
        refine ⟨?_, nofun⟩
        by_cases e : q = p
        · subst e
          rw [setPk_self] at hs
          cases hs
          have := hi.buf q k hx
          cases hop : k.op with
          | done r => rw [hop] at this; exact this.1
          | none => rw [hop] at hdone; cases hdone
          | inFlight m c => rw [hop] at hdone; cases hdone
        · rw [setPk_other _ _ e] at hs
          exact hi.buf q s hs
      · intro q hs
        by_cases e : q = p
        · subst e; exact absurd (setPk_self _ _ _) (hs _)
        · refine hi.wr q fun s h => hs s ?_
          dsimp only
          rw [setPk_other _ _ e]; exact h
  | _ =>
    have hd : dropEntry f.m.c p = f.m.c := by unfold dropEntry; rw [hx]
    have hd' : dropEntry (abs f).c p = (abs f).c := by
      have : ∀ s, (abs f).c.pk p ≠ .socket s := by
        intro s h
        have h : absPkt _ (f.sec p) (f.m.c.pk p) = .socket s := h
        rw [hx] at h
        cases hs : f.sec p <;> rw [hs] at h <;> cases h
      unfold dropEntry
      split
      · rename_i s h; exact absurd h (this s)
      · rfl
    rw [hd, hd']
    have := good_wait' (n := n) (fault := fault) (c' := f.m.c) (ph := .drain w e batch) (nt := f.m.notified) hi hfree ht rfl
    exact ⟨this.1.symm, this.2⟩

theorem waitFail_good {n f fault c' w e} (hi : Inv n f) (hfree : Free f .waiter) (ht : f.taken = none) (hc : c'.pk = f.m.c.pk) :
    waitFail { abs f with c := { c' with pk := (abs f).c.pk } } w e =
      (abs (after f (.wait fault) (waitFail { f.m with c := c' } w e).1), (waitFail { f.m with c := c' } w e).2) ∧
    Inv n (after f (.wait fault) (waitFail { f.m with c := c' } w e).1) := by
  unfold waitFail
  split
  · have := good_wait' (n := n) (fault := fault) (c' := c') (ph := .top w.timed w.cap) (nt := f.m.notified) hi hfree ht hc
    exact ⟨by dsimp only; rw [this.1]; rfl, this.2⟩
  · have := good_wait' (n := n) (fault := fault) (c' := c') (ph := .idle) (nt := f.m.notified) hi hfree ht hc
    exact ⟨by dsimp only; rw [this.1]; rfl, this.2⟩

theorem sim_wait {n P f tr fault m' o} (hi : Inv n f) (hr : Reach n P (abs f) tr) (hp : plain f (.wait fault) = true)
    (h : step n f.m (.wait fault) = some (m', o)) : Good n f (.wait fault) m' o := by
  have hp : (!locks f.m .waiter && !untaken f) = true := hp
  rw [Bool.and_eq_true] at hp
  have hl : locks f.m .waiter = false := by simpa using hp.1
  have hu : untaken f = false := by simpa using hp.2
  have hfree := free_waiter hi hl
  have hph' := free_phase hfree
  have hnon : ∀ k p, phaseSite f.m.phase = some (k, p) → entry k (f.m.c.pk p) = none := by
    intro k p hs
    unfold locks at hl
    rw [show site f.m .waiter = some (k, p) from hs] at hl
    dsimp only at hl
    rwa [Option.isSome_eq_false_iff, Option.isNone_iff_eq_none] at hl
  have hnon' : ∀ k p, phaseSite f.m.phase = some (k, p) → entry k ((abs f).c.pk p) = none := fun k p hs => entry_non (hnon k p hs)
  have hgood := fun (c' : Core) (ph : Phase) (nt : Bool) => good_wait' (n := n) (f := f) (fault := fault) (c' := c') (ph := ph) (nt := nt) hi hfree
  simp only [step] at h
  unfold Good
  simp only [step]
  unfold goWait at h ⊢
  rw [hph']
  cases hph : f.m.phase with
  | idle => rw [hph] at h; cases h
  | port => rw [hph] at h; cases h
  | stuck => rw [hph] at h; cases h
  | top timed cap =>
    rw [hph] at h; cases h
    have := hgood f.m.c (.start ⟨timed, cap, false, 0, []⟩) f.m.notified (not_taken hi (by rw [hph]; nofun)) rfl
    exact ⟨by rw [this.1]; rfl, this.2⟩
  | start w =>
    rw [hph] at h; cases h
    have := hgood { f.m.c with polling := true } (.pop { w with newEvents := 0 }) f.m.notified (not_taken hi (by rw [hph]; nofun)) rfl
    exact ⟨by rw [this.1]; rfl, this.2⟩
  | fin evs =>
    rw [hph] at h; cases h
    have := hgood f.m.c .idle false (not_taken hi (by rw [hph]; nofun)) rfl
    exact ⟨by rw [this.1]; rfl, this.2⟩
  | unpoll w batch =>
    rw [hph] at h; cases h
    have := hgood { f.m.c with polling := false } (.feed w batch) f.m.notified (not_taken hi (by rw [hph]; nofun)) rfl
    exact ⟨by rw [this.1]; rfl, this.2⟩
  | fail w e =>
    rw [hph] at h
    obtain ⟨h1, h2⟩ := waitFail_good (n := n) (fault := fault) (w := w) (e := e) (c' := { f.m.c with polling := false }) hi hfree (not_taken hi (by rw [hph]; nofun)) rfl
    have h := Option.some.inj h
    have hm : (waitFail { f.m with c := { f.m.c with polling := false } } w e).1 = m' := congrArg Prod.fst h
    have ho : (waitFail { f.m with c := { f.m.c with polling := false } } w e).2 = o := congrArg Prod.snd h
    rw [hm] at h1 h2
    rw [ho] at h1
    exact ⟨congrArg some h1, h2⟩
  | pop w =>
    rw [hph] at h
    dsimp only at h ⊢
    rw [show (abs f).c.pending = f.m.c.pending from rfl]
    have ht : f.taken = none := not_taken hi (by rw [hph]; nofun)
    split at h
    · rename_i q rest hq
      cases h
      have := hgood { f.m.c with pending := rest } (.upd w q) f.m.notified ht rfl
      exact ⟨by rw [this.1]; rfl, this.2⟩
    · cases h
      have := hgood f.m.c (.port w) f.m.notified ht rfl
      exact ⟨by rw [this.1]; rfl, this.2⟩
  | upd w q =>
    rw [hph] at h
    dsimp only at h ⊢
    rw [update_non (hnon .upd q (by rw [hph]; rfl))] at h
    rw [update_non (hnon' .upd q (by rw [hph]; rfl))]
    cases h
    have := hgood f.m.c (.fail w (.os 0)) f.m.notified (not_taken hi (by rw [hph]; nofun)) rfl
    exact ⟨by rw [this.1]; rfl, this.2⟩
  | feedUpd w batch u ev =>
    rw [hph] at h
    dsimp only at h ⊢
    have ht : f.taken = none := not_taken hi (by rw [hph]; nofun)
    have hus := ustep_plain (fault := coherent fault u) (u := u) (c := f.m.c) (c' := (abs f).c) (by
      intro p hp'
      exact ⟨hnon .upd p (by rw [hph]; show Option.map _ (uSite u) = _; rw [hp']; rfl),
        hnon' .upd p (by rw [hph]; show Option.map _ (uSite u) = _; rw [hp']; rfl)⟩) rfl
    rw [hus.1]
    have hpk := hus.2
    revert h hpk
    generalize ustep (coherent fault u) f.m.c u = r
    obtain ⟨c', out, o'⟩ := r
    intro h hpk
    have hpk : c'.pk = f.m.c.pk := hpk
    cases out with
    | more u' =>
      cases h
      have := hgood c' (.feedUpd w batch u' ev) f.m.notified ht hpk
      exact ⟨by rw [this.1]; rfl, this.2⟩
    | done r' =>
      cases r' with
      | ok =>
        cases h
        have := hgood c' (.feed (addEvent w ev) batch) f.m.notified ht hpk
        exact ⟨by rw [this.1]; rfl, this.2⟩
      | err e =>
        cases h
        have := hgood c' (.drain w e batch) f.m.notified ht hpk
        exact ⟨by rw [this.1]; rfl, this.2⟩
  | drain w e batch =>
    cases batch with
    | nil =>
      rw [hph] at h
      obtain ⟨h1, h2⟩ := waitFail_good (n := n) (fault := fault) (w := w) (e := e) (c' := f.m.c) hi hfree (not_taken hi (by rw [hph]; nofun)) rfl
      have h := Option.some.inj h
      have hm : (waitFail f.m w e).1 = m' := congrArg Prod.fst h
      have ho : (waitFail f.m w e).2 = o := congrArg Prod.snd h
      rw [show ({ f.m with c := f.m.c } : S) = f.m from rfl, hm] at h1 h2
      rw [ho] at h1
      exact ⟨congrArg some h1, h2⟩
    | cons p batch =>
      rw [hph] at h
      cases h
      obtain ⟨h1, h2⟩ := sim_drop (fault := fault) hi hr hph
      exact ⟨congrArg (fun z => some (z, _)) h1, h2⟩
  | feed w batch =>
    cases batch with
    | nil => rw [hph] at h; cases h
    | cons p batch =>
      have he := hnon .feed p (by rw [hph]; rfl)
      have ht : f.taken = some p := by
        unfold untaken at hu
        rw [hph] at hu
        dsimp only at hu
        cases ht : f.taken with
        | none => rw [ht] at hu; cases hu
        | some q =>
          obtain ⟨⟨w', b', hq⟩, _⟩ := hi.tak q ht
          rw [hph] at hq; cases hq; rfl
      have hx : (∀ s, f.m.c.pk p ≠ .socket s) ∧ ∀ s, f.m.c.pk p ≠ .waitable s := by
        constructor <;> (intro s hs; rw [hs] at he; cases he)
      have hX : absPk none f.sec f.m.c.pk = (abs f).c.pk := by
        show _ = absPk f.taken f.sec f.m.c.pk
        funext q
        unfold absPk
        by_cases e : q = p
        · subst e
          cases hq : f.m.c.pk q with
          | socket s => exact absurd hq (hx.1 s)
          | waitable s => exact absurd hq (hx.2 s)
          | _ => cases f.sec q <;> rfl
        · rw [ht, decide_eq_false (show ¬ none = some q from nofun), decide_eq_false (show ¬ some p = some q from fun h => e (Option.some.inj h).symm)]
      have hsec : ∀ q wp, f.sec q = some wp → f.taken ≠ some q := by
        intro q wp hq htq
        rw [ht] at htq
        cases htq
        rcases pkt_lockable (hi.sec p wp.1 wp.2 hq).1 with ⟨s, hs⟩ | ⟨s, hs⟩
        · exact hx.1 s hs
        · exact hx.2 s hs
      have hgood := fun (ph : Phase) => good_wait (n := n) (f := f) (fault := fault) (c' := f.m.c) (ph := ph) (nt := f.m.notified) hi hfree hX hsec rfl
      rw [hph] at h
      dsimp only at h ⊢
      have hcases : (f.m.c.pk p = .free ∨ f.m.c.pk p = .wakeup) ∨ ∃ ev, f.m.c.pk p = .custom ev := by
        cases hq : f.m.c.pk p with
        | socket s => exact absurd hq (hx.1 s)
        | waitable s => exact absurd hq (hx.2 s)
        | free => exact .inl (.inl rfl)
        | wakeup => exact .inl (.inr rfl)
        | custom ev => exact .inr ⟨ev, rfl⟩
      have habs : (abs f).c.pk p = f.m.c.pk p := by
        show absPkt _ (f.sec p) (f.m.c.pk p) = _
        rcases hcases with (h | h) | ⟨ev, h⟩ <;> rw [h] <;> cases f.sec p <;> rfl
      rcases hcases with (hq | hq) | ⟨ev, hq⟩
      · have h1 : feed f.m.c p = (.noEvent, f.m.c) := by unfold feed; rw [hq]
        have h2 : feed (abs f).c p = (.noEvent, (abs f).c) := by unfold feed; rw [habs, hq]
        rw [h1] at h; rw [h2]; cases h
        have := hgood (.feed w batch)
        exact ⟨by rw [this.1]; rfl, this.2⟩
      · have h1 : feed f.m.c p = (.notified, f.m.c) := by unfold feed; rw [hq]
        have h2 : feed (abs f).c p = (.notified, (abs f).c) := by unfold feed; rw [habs, hq]
        rw [h1] at h; rw [h2]; cases h
        have := hgood (.feed { w with notified := true } batch)
        exact ⟨by rw [this.1]; rfl, this.2⟩
      · have h1 : feed f.m.c p = (.custom ev, f.m.c) := by unfold feed; rw [hq]
        have h2 : feed (abs f).c p = (.custom ev, (abs f).c) := by unfold feed; rw [habs, hq]
        rw [h1] at h; rw [h2]; cases h
        have := hgood (.feed (addEvent w (some ev)) batch)
        exact ⟨by rw [this.1]; rfl, this.2⟩

theorem sim_plain {n P f tr a f' o} (hi : Inv n f) (hr : Reach n P (abs f) tr) (h : fstep n f (.plain a) = some (f', o)) :
    Sim n f (.plain a) f' o ∧ Inv n f' := by
  unfold fstep at h
  dsimp only at h
  split at h
  rotate_left
  · cases h
  rename_i hp
  cases hs : step n f.m a with
  | none => rw [hs] at h; cases h
  | some r =>
    obtain ⟨m', o'⟩ := r
    rw [hs] at h
    cases h
    have hg : Good n f a m' o' := by
      cases a with
      | call t call => exact sim_call hi hs
      | go t fault => exact sim_go hi hr hp hs
      | newPacket ev => exact sim_newPacket hi hr hs
      | post p fault => exact sim_post hi hs
      | notifyCas t => exact sim_notifyCas hi hs
      | notifyPost t fault => exact sim_notifyPost hi hs
      | waitBegin timed cap => exact sim_waitBegin hi hs
      | waitBusy => exact sim_waitBusy hi hs
      | wait fault => exact sim_wait hi hr hp hs
      | get => exact sim_get hi hs
      | getFail e => exact sim_getFail hi hs
      | decide x => exact sim_decide hi hs
      | complete p r => exact sim_complete hi hp hs
      | fire p => exact sim_fire hi hs
      | callback p => cases hp
      | callbackPost p fault => exact sim_callbackPost hi hp hs
    exact ⟨.inr ⟨a, o', rfl, rfl, hg.1⟩, hg.2⟩

theorem inv_init (n) : Inv n init := by
  refine ⟨nofun, nofun, ?_, fun _ _ => rfl⟩
  intro p s h
  have h : (if p = NOTIFIER then Pkt.wakeup else Pkt.free) = .socket s := h
  split at h <;> cases h

theorem abs_init : abs init = IocpM.init := by
  unfold abs
  have : absPk init.taken init.sec init.m.c.pk = IocpM.init.c.pk := by
    funext p
    show absPkt _ none (if p = NOTIFIER then Pkt.wakeup else Pkt.free) = if p = NOTIFIER then Pkt.wakeup else Pkt.free
    split <;> rfl
  rw [this]
  rfl

/-- Every step of the fine-grained machine is internal, or a step of the coarse one. -/
theorem sim {n P f tr a f' o} (hi : Inv n f) (hr : Reach n P (abs f) tr) (h : fstep n f a = some (f', o)) : Sim n f a f' o ∧ Inv n f' := by
  cases a with
  | plain a => exact sim_plain hi hr h
  | take => exact sim_take hi hr h
  | lock who p => exact sim_lock hi hr h
  | access p fault => exact sim_access hi hr h
  | unlock p => exact sim_unlock hi h
  | write p r => exact sim_write hi h

/-- The steps of the fine-grained machine that stand for steps with `P`. -/
def lift (P : S → Act → Prop) : F → FAct → Prop := fun f a => ∀ a', label f a = some a' → P (abs f) a'

theorem refine {n P f tr} (h : FReach n (lift P) f tr) : Reach n P (abs f) tr ∧ Inv n f := by
  induction h with
  | init => exact ⟨by rw [abs_init]; exact .init, inv_init n⟩
  | step h hq hs ih =>
    obtain ⟨h1, h2⟩ := sim ih.2 ih.1 hs
    refine ⟨?_, h2⟩
    rcases h1 with ⟨_, rfl, h3⟩ | ⟨a', o', hl, rfl, h3⟩
    · rw [h3]; exact ih.1
    · exact .step ih.1 (hq a' hl) h3

end Polling.IocpF
