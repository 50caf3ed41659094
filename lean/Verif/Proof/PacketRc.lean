import Verif.Model.PacketRc
import Verif.Proof.IocpOps
import Verif.Proof.IocpClose
import Verif.Proof.IocpSync

/-! Every count is the number of places that have the packet. -/

namespace Polling.IocpM.Rc
open Iocp IocpSpec

/-- The kernel has the packet: an operation in flight, or the closure of a registered wait. -/
def kern : Pkt → Nat
  | .socket s => match s.op with | .inFlight _ _ => 1 | _ => 0
  | .waitable w => if w.registered then 1 else 0
  | _ => 0

/-- References in the poller's shared state and in the kernel. -/
def coreRefs (c : Core) (q : PId) : Nat := (if inTable c q then 1 else 0) + c.pending.count q + c.port.count q + kern (c.pk q)

theorem inTable_ident (c : Core) (p : PId) :
    inTable c p = match ident (c.pk p) with | some (k, fd) => c.table k fd == some p | none => false := by
  unfold inTable ident; cases c.pk p <;> rfl

/-- Replacing a packet by one for the same source. -/
theorem coreRefs_pk {c c' : Core} (q : PId) (hi : ident (c'.pk q) = ident (c.pk q)) (ht : c'.table = c.table) (hp : c'.pending = c.pending)
    (ho : c'.port = c.port) : coreRefs c' q + kern (c.pk q) = coreRefs c q + kern (c'.pk q) := by
  unfold coreRefs
  rw [inTable_ident, inTable_ident, hi, ht, hp, ho]
  omega

/-! ### Heap -/

theorem run_append (h : Heap) (a b : List HOp) : h.run (a ++ b) = (h.run a).run b := List.foldl_append ..

/-- The counts after dropping the elements of a list. -/
theorem run_drops (l : List PId) : ∀ h : Heap, (∀ q, l.count q ≤ h.rc q) →
    (h.run (l.map .drop)).bad = h.bad ∧ ∀ q, (h.run (l.map .drop)).rc q + l.count q = h.rc q := by
  induction l with
  | nil => exact fun h _ => ⟨rfl, fun q => rfl⟩
  | cons p l ih =>
    intro h hc
    have hp := hc p
    simp only [List.count_cons_self] at hp
    have := ih (h.op (.drop p)) (by
      intro q
      have := hc q
      simp only [Heap.op, setRc, List.count_cons, beq_iff_eq] at this ⊢
      by_cases hq : q = p
      · subst hq; simp at this ⊢; omega
      · simp [hq, Ne.symm hq] at this ⊢; omega)
    show ((h.op (.drop p)).run (l.map .drop)).bad = h.bad ∧ ∀ q, ((h.op (.drop p)).run (l.map .drop)).rc q + _ = _
    refine ⟨?_, fun q => ?_⟩
    · rw [this.1]
      have : (h.rc p == 0) = false := by simp; omega
      simp [Heap.op, this]
    · have h2 := this.2 q
      simp only [Heap.op, setRc, List.count_cons, beq_iff_eq] at h2 ⊢
      by_cases hq : q = p
      · subst hq; simp at h2 ⊢; omega
      · simp [hq, Ne.symm hq] at h2 ⊢; omega

theorem run_entries (l : List PId) : ∀ h : Heap, (∀ q, l.count q ≤ h.rc q) →
    (h.run (l.flatMap fun p => [.touch p, .drop p])).bad = h.bad ∧
    ∀ q, (h.run (l.flatMap fun p => [.touch p, .drop p])).rc q + l.count q = h.rc q := by
  induction l with
  | nil => exact fun h _ => ⟨rfl, fun q => rfl⟩
  | cons p l ih =>
    intro h hc
    have hp := hc p
    simp only [List.count_cons_self] at hp
    have := ih ((h.op (.touch p)).op (.drop p)) (by
      intro q
      have := hc q
      simp only [Heap.op, setRc, List.count_cons, beq_iff_eq] at this ⊢
      by_cases hq : q = p
      · subst hq; simp at this ⊢; omega
      · simp [hq, Ne.symm hq] at this ⊢; omega)
    show (((h.op (.touch p)).op (.drop p)).run (l.flatMap fun p => [.touch p, .drop p])).bad = h.bad ∧
      ∀ q, (((h.op (.touch p)).op (.drop p)).run (l.flatMap fun p => [.touch p, .drop p])).rc q + _ = _
    refine ⟨?_, fun q => ?_⟩
    · rw [this.1]
      have : (h.rc p == 0) = false := by simp; omega
      simp [Heap.op, this]
    · have h2 := this.2 q
      simp only [Heap.op, setRc, List.count_cons, beq_iff_eq] at h2 ⊢
      by_cases hq : q = p
      · subst hq; simp at h2 ⊢; omega
      · simp [hq, Ne.symm hq] at h2 ⊢; omega

/-- A packet that is not there does not come into being by other operations. -/
theorem run_zero (ops : List HOp) : ∀ (h : Heap) (q : PId), (h.run ops).bad = false → h.rc q = 0 → .alloc q ∉ ops →
    (h.run ops).rc q = 0 := by
  have mono : ∀ (ops : List HOp) (h : Heap), (h.run ops).bad = false → h.bad = false := by
    intro ops
    induction ops with
    | nil => exact fun _ h => h
    | cons o ops ih =>
      intro h hb
      have := ih (h.op o) hb
      cases o <;> simp [Heap.op] at this <;> exact this.1
  induction ops with
  | nil => exact fun _ _ _ h _ => h
  | cons o ops ih =>
    intro h q hb hq hn
    have h1 := mono ops (h.op o) hb
    refine ih (h.op o) q hb ?_ (fun hm => hn (List.mem_cons_of_mem _ hm))
    cases o with
    | alloc p =>
      have : q ≠ p := fun he => hn (he ▸ List.mem_cons_self ..)
      simp [Heap.op, setRc, this, hq]
    | clone p =>
      simp [Heap.op] at h1
      have : q ≠ p := fun he => h1.2 (he ▸ hq)
      simp [Heap.op, setRc, this, hq]
    | drop p =>
      simp [Heap.op] at h1
      have : q ≠ p := fun he => h1.2 (he ▸ hq)
      simp [Heap.op, setRc, this, hq]
    | touch p => exact hq

/-- Some code with local references `L` leads from `c` to `c'`, with local references `L'` and without losing track of any. -/
def Bal (c : Core) (L : List PId) (h : Heap) (c' : Core) (L' lost : List PId) (h' : Heap) : Prop :=
  (∀ q, coreRefs c q + L.count q ≤ h.rc q) →
  h'.bad = h.bad ∧ ∀ q, coreRefs c' q + L'.count q + lost.count q + h.rc q = coreRefs c q + L.count q + h'.rc q

/-- A registered wait is that of the status. -/
def WOk : Pkt → Prop
  | .waitable w => w.registered = true → w.status = .waiting
  | _ => True

theorem kern_cancel (fault k) : kern (.socket (cancel fault k).2) = kern (.socket k) := by
  unfold cancel
  cases ho : k.op <;> cases fault <;> simp [kern, ho, Op.cancel]

theorem run_update (c : Core) (p : PId) (h : Heap) (hp : 1 ≤ h.rc p) :
    (h.run (updateOps c p)).bad = h.bad ∧ (∀ q, q ≠ p → (h.run (updateOps c p)).rc q = h.rc q) := by
  have h0 : (h.rc p == 0) = false := by simp; omega
  have h1 : ∀ o ∈ [HOp.touch p, .drop p], ∀ q, q ≠ p → (h.op o).rc q = h.rc q := by
    intro o ho q hq
    simp at ho
    rcases ho with rfl | rfl <;> simp [Heap.op, setRc, hq]
  unfold updateOps
  have hT : ∀ l : List HOp, (l = [] ∨ l = [.touch p] ∨ l = [.clone p] ∨ l = [.clone p, .touch p] ∨ l = [.clone p, .touch p, .drop p]) →
      (h.run ([.touch p] ++ l ++ [.drop p])).bad = h.bad ∧
      ∀ q, q ≠ p → (h.run ([.touch p] ++ l ++ [.drop p])).rc q = h.rc q := by
    rintro l (rfl | rfl | rfl | rfl | rfl) <;> refine ⟨?_, fun q hq => ?_⟩ <;> simp [Heap.run, Heap.op, setRc, h0] <;> simp [*]
  cases c.pk p with
  | socket k =>
    refine hT _ ?_
    repeat' split
    all_goals simp
  | waitable w =>
    refine hT _ ?_
    repeat' split
    all_goals simp
  | _ => exact hT [] (.inl rfl)

theorem update_bal {fault c p} (h : Heap) (h1 : OpOk (c.pk p)) (h2 : WOk (c.pk p)) :
    Bal c [p] h (update fault c p).2.1 [] (updateLost fault c p) (h.run (updateOps c p)) := by
  intro hc
  have hp := hc p
  simp only [List.count_cons_self, List.count_nil] at hp
  have h0 : (h.rc p == 0) = false := by simp; omega
  have hcore : ∀ q, coreRefs (update fault c p).2.1 q + kern (c.pk q) = coreRefs c q + kern ((update fault c p).2.1.pk q) := by
    intro q
    obtain ⟨_, ht, hpe, _, hpo, _⟩ := update_frame fault c p
    exact coreRefs_pk q (ident_update fault c p q) ht hpe hpo
  obtain ⟨hb, hrc⟩ := run_update c p h (by omega)
  refine ⟨hb, fun q => ?_⟩
  have hq := hcore q
  by_cases hqp : q = p
  · subst hqp
    have key : kern ((update fault c q).2.1.pk q) + (updateLost fault c q).count q + h.rc q =
        kern (c.pk q) + 1 + (h.run (updateOps c q)).rc q := by
      have hr : 1 ≤ h.rc q := by omega
      clear hcore hq hc hp hrc hb
      rw [update_pkt]
      unfold updateOps updateLost
      cases hpk : c.pk q with
      | socket k =>
        rw [hpk] at h1
        dsimp only
        unfold updateSock
        by_cases hw : k.waitingOnDelete = true
        · simp only [hw, if_true]
          cases fault <;> simp [Heap.run, Heap.op, setRc] <;> omega
        · simp only [hw]
          cases hst : k.status with
          | polling f =>
            have hk : kern (.socket (if k.mask ≠ f then let (r, s) := cancel fault k; ((r, s, none) : Res × Sock × Option Mask)
                else (.ok, k, none)).2.1) = kern (.socket k) := by
              split
              · exact kern_cancel fault k
              · rfl
            simp only [Bool.false_eq_true, if_false]
            rw [hk]
            cases fault <;> simp [Heap.run, Heap.op, setRc] <;> omega
          | cancelled => cases fault <;> simp [Heap.run, Heap.op, setRc] <;> omega
          | idle =>
            have hop := h1.2 hst
            unfold startPoll
            cases hu : k.inUse
            · cases fault with
              | none => simp [Heap.run, Heap.op, setRc, kern, hop] <;> omega
              | some e =>
                have hk : ∀ b, kern (.socket (if b = true then ((.ok, { k with inUse := true, status := .polling k.mask }, none) : Res × Sock × Option Mask)
                    else (.err e, { k with inUse := true }, none)).2.1) = 0 := by
                  intro b; cases b <;> simp [kern, hop]
                simp only [Bool.false_eq_true, if_false]
                rw [hk]
                simp [Heap.run, Heap.op, setRc, kern, hop]
            · cases fault <;> simp [Heap.run, Heap.op, setRc, kern, hop] <;> omega
      | waitable w =>
        rw [hpk] at h2
        dsimp only
        unfold updateWtb
        by_cases hi : (!w.interest.readable && !w.interest.writable) = true
        · have hi' : (w.interest.readable || w.interest.writable) = false := by
            revert hi; cases w.interest.readable <;> cases w.interest.writable <;> simp
          simp only [hi, hi', if_true]
          cases fault <;> simp [Heap.run, Heap.op, setRc] <;> omega
        · have hi' : (w.interest.readable || w.interest.writable) = true := by
            revert hi; cases w.interest.readable <;> cases w.interest.writable <;> simp
          simp only [hi, hi']
          by_cases hst : w.status = .idle
          · have hreg : w.registered = false := by
              cases hr' : w.registered with
              | false => rfl
              | true => have := h2 hr'; rw [hst] at this; cases this
            cases fault <;> simp [Heap.run, Heap.op, setRc, kern, hst, hreg] <;> omega
          · cases fault <;> simp [Heap.run, Heap.op, setRc, kern, hst] <;> omega
      | _ => cases fault <;> simp [Heap.run, Heap.op, setRc, kern] <;> omega
    simp only [List.count_cons_self, List.count_nil] at *
    omega
  · have hl : (updateLost fault c p).count q = 0 := by
      unfold updateLost
      repeat' split
      all_goals simp [Ne.symm hqp]
    have hk : (update fault c p).2.1.pk q = c.pk q := (update_frame fault c p).2.2.2.2.2 q hqp
    rw [hk] at hq
    rw [hrc q hqp, hl]
    simp [Ne.symm hqp]
    omega


theorem Bal.frame {c L h c' L' lost h'} (F : List PId) (hb : Bal c L h c' L' lost h') : Bal c (F ++ L) h c' (F ++ L') lost h' := by
  intro hc
  have := hb fun q => by have := hc q; rw [List.count_append] at this; omega
  refine ⟨this.1, fun q => ?_⟩
  have := this.2 q
  rw [List.count_append, List.count_append]
  omega

theorem Bal.next {c L h c' L' l1 h' c'' L'' l2 h''} (h1 : Bal c L h c' L' l1 h') (h2 : Bal c' L' h' c'' L'' l2 h'') :
    Bal c L h c'' L'' (l1 ++ l2) h'' := by
  intro hc
  obtain ⟨b1, e1⟩ := h1 hc
  obtain ⟨b2, e2⟩ := h2 fun q => by have := e1 q; have := hc q; omega
  refine ⟨b2.trans b1, fun q => ?_⟩
  have := e1 q
  have := e2 q
  rw [List.count_append]
  omega

theorem Bal.perm {c L M h c' L' M' lost h'} (hb : Bal c L h c' L' lost h') (h1 : L.Perm M) (h2 : L'.Perm M') :
    Bal c M h c' M' lost h' := by
  intro hc
  obtain ⟨b, e⟩ := hb fun q => by rw [h1.count_eq]; exact hc q
  exact ⟨b, fun q => by rw [← h1.count_eq, ← h2.count_eq]; exact e q⟩

theorem drop_bal (c : Core) (p : PId) (h : Heap) : Bal c [p] h c [] [] (h.run [.drop p]) := by
  intro hc
  have hp := hc p
  simp only [List.count_cons_self, List.count_nil] at hp
  have h0 : (h.rc p == 0) = false := by simp; omega
  refine ⟨by simp [Heap.run, Heap.op, h0], fun q => ?_⟩
  by_cases hq : q = p
  · subst hq; simp [Heap.run, Heap.op, setRc]; omega
  · simp [Heap.run, Heap.op, setRc, hq, Ne.symm hq]

theorem touch_bal (c : Core) (p : PId) (h : Heap) : Bal c [p] h c [p] [] (h.run [.touch p]) := by
  intro hc
  have hp := hc p
  simp only [List.count_cons_self, List.count_nil] at hp
  have h0 : (h.rc p == 0) = false := by simp; omega
  exact ⟨by simp [Heap.run, Heap.op, h0], fun q => by simp [Heap.run, Heap.op]⟩

/-- Only references move. -/
theorem move_bal {c c' : Core} {L L' : List PId} {h : Heap} (he : ∀ q, coreRefs c' q + L'.count q = coreRefs c q + L.count q) :
    Bal c L h c' L' [] h := fun _ => ⟨rfl, fun q => by have := he q; simp; omega⟩

def uRefs : UPc → List PId
  | .load p | .run p | .push p | .pop p _ => [p]
  | .drain p _ q => [p, q]
def outRefs : UOut → List PId
  | .more u => uRefs u
  | .done _ => []

theorem coherent_ops (fault c) (u : UPc) : ustepOps (coherent fault u) c u = ustepOps fault c u := by cases u <;> rfl
theorem coherent_lost (fault c) (u : UPc) : ustepLost (coherent fault u) c u = ustepLost fault c u := by cases u <;> rfl

theorem ustep_bal {fault c u c' out o} (h : Heap) (h1 : ∀ p, OpOk (c.pk p)) (h2 : ∀ p, WOk (c.pk p)) (hu : ustep fault c u = (c', out, o)) :
    Bal c (uRefs u) h c' (outRefs out) (ustepLost fault c u) (h.run (ustepOps fault c u)) := by
  cases u with
  | load p =>
    cases hu
    refine move_bal fun q => ?_
    cases c.polling <;> cases fault <;> rfl
  | run p => cases hu; exact update_bal h (h1 p) (h2 p)
  | push p =>
    unfold ustep at hu
    dsimp only at hu
    by_cases hl : c.pending.length < CAPACITY
    · rw [if_pos hl] at hu
      cases hu
      refine move_bal fun q => ?_
      show (if inTable c q then 1 else 0) + (c.pending ++ [p]).count q + c.port.count q + kern (c.pk q) + 0 =
        (if inTable c q then 1 else 0) + c.pending.count q + c.port.count q + kern (c.pk q) + [p].count q
      rw [List.count_append]; omega
    · rw [if_neg hl] at hu
      cases hu
      exact move_bal fun q => rfl
  | pop p n =>
    unfold ustep at hu
    dsimp only at hu
    split at hu
    · rename_i n' q rest hp
      cases hu
      refine move_bal fun x => ?_
      show (if inTable c x then 1 else 0) + rest.count x + c.port.count x + kern (c.pk x) + [p, q].count x =
        (if inTable c x then 1 else 0) + c.pending.count x + c.port.count x + kern (c.pk x) + [p].count x
      rw [hp]
      simp only [List.count_cons, List.count_nil]
      omega
    · cases hu
      exact move_bal fun q => rfl
  | drain p n q =>
    have hb := (update_bal (fault := fault) h (h1 q) (h2 q)).frame [p]
    unfold ustep at hu
    dsimp only at hu
    show Bal c [p, q] h c' (outRefs out) (updateLost fault c q) (h.run (updateOps c q ++ _))
    rcases hr : (update fault c q).1 with _ | e
    · rw [hr] at hu
      cases hu
      rw [List.append_nil]
      exact hb
    · rw [hr] at hu
      cases hu
      rw [run_append]
      have := hb.next (drop_bal _ p _)
      rw [List.append_nil] at this
      exact this

/-- The facts about the shared state that are needed. -/
structure COk (c : Core) : Prop where
  op : ∀ p, OpOk (c.pk p)
  w : ∀ p, WOk (c.pk p)
  low : ∀ p, c.next ≤ p → c.pk p = .free
  ids : ∀ k fd p, c.table k fd = some p → ident (c.pk p) = some (k, fd)

def pcRefs : Pc → List PId
  | .set _ p | .del _ p => [p]
  | .upd _ u => uRefs u
  | _ => []

theorem kern_setEvents (c p ev mode q) : kern ((setEvents c p ev mode).2.pk q) = kern (c.pk q) := by
  unfold setEvents
  cases hp : c.pk p with
  | socket s =>
    by_cases hq : q = p
    · subst hq; simp [setPk, hp, kern, setEventsSock]
    · simp [setPk, hq]
  | waitable w =>
    by_cases hq : q = p
    · subst hq; simp [setPk, hp, kern]
    · simp [setPk, hq]
  | _ => rfl

theorem ident_setEvents (c p ev mode q) : ident ((setEvents c p ev mode).2.pk q) = ident (c.pk q) := by
  unfold setEvents
  cases hp : c.pk p with
  | socket s =>
    by_cases hq : q = p
    · subst hq; simp [setPk, hp, ident, setEventsSock]
    · simp [setPk, hq]
  | waitable w =>
    by_cases hq : q = p
    · subst hq; simp [setPk, hp, ident]
    · simp [setPk, hq]
  | _ => rfl

theorem setEvents_frame (c p ev mode) : (setEvents c p ev mode).2.table = c.table ∧ (setEvents c p ev mode).2.pending = c.pending ∧
    (setEvents c p ev mode).2.port = c.port ∧ (setEvents c p ev mode).2.next = c.next := by
  unfold setEvents; split <;> exact ⟨rfl, rfl, rfl, rfl⟩

theorem ident_beginDelete (fault c p q) : ident ((beginDelete fault c p).2.pk q) = ident (c.pk q) := by
  unfold beginDelete
  cases hp : c.pk p with
  | socket s =>
    dsimp only
    split
    · rfl
    · split
      · by_cases hq : q = p
        · subst hq; simp [setPk, hp, ident, (cancel_frame _ _).1]
        · simp [setPk, hq]
      · by_cases hq : q = p
        · subst hq; simp [setPk, hp, ident]
        · simp [setPk, hq]
  | waitable w =>
    by_cases hq : q = p
    · subst hq; simp [setPk, hp, ident]
    · simp [setPk, hq]
  | _ => rfl

/-- What `begin_delete` lets go. -/
def delLost (c : Core) (p : PId) : List PId := match c.pk p with | .waitable w => if w.registered then [p] else [] | _ => []

theorem kern_beginDelete (fault c p q) : kern ((beginDelete fault c p).2.pk q) + (delLost c p).count q = kern (c.pk q) := by
  unfold beginDelete delLost
  cases hp : c.pk p with
  | socket s =>
    dsimp only
    split
    · rfl
    · split
      · by_cases hq : q = p
        · subst hq; simp [setPk, hp, kern_cancel]; rfl
        · simp [setPk, hq]
      · by_cases hq : q = p
        · subst hq; simp [setPk, hp]; rfl
        · simp [setPk, hq]
  | waitable w =>
    by_cases hq : q = p
    · subst hq; cases hr : w.registered <;> simp [setPk, hp, kern, hr]
    · cases hr : w.registered <;> simp [setPk, hq, hr, Ne.symm hq]
  | _ => rfl

/-- Only packets changed, and their counts in the kernel are the same. -/
theorem core_same {c c' : Core} (hi : ∀ q, ident (c'.pk q) = ident (c.pk q)) (ht : c'.table = c.table) (hp : c'.pending = c.pending)
    (ho : c'.port = c.port) (hk : ∀ q, kern (c'.pk q) = kern (c.pk q)) (q : PId) : coreRefs c' q = coreRefs c q := by
  have := coreRefs_pk q (hi q) ht hp ho
  have := hk q
  omega

theorem goCall_bal {s s' : S} {t fault o} (h : Heap) (hc : COk s.c) (hn : h.rc s.c.next = 0) (hg : goCall s t fault = some (s', o)) :
    s'.phase = s.phase ∧ s'.cb = s.cb ∧ s'.cbPost = s.cbPost ∧ ∃ x, s'.pc = upd s.pc t x ∧
      Bal s.c (pcRefs (s.pc t)) h s'.c (pcRefs x) (goLost s t fault) (h.run (goOps s t fault)) := by
  unfold goCall at hg
  unfold goOps goLost
  cases hpc : s.pc t with
  | out => rw [hpc] at hg; cases hg
  | notify => rw [hpc] at hg; cases hg
  | prepare call =>
    rw [hpc] at hg
    dsimp only at hg
    cases fault <;> cases hg <;> exact ⟨rfl, rfl, rfl, _, rfl, move_bal fun q => rfl⟩
  | ret call r =>
    rw [hpc] at hg
    cases hg
    exact ⟨rfl, rfl, rfl, _, rfl, move_bal fun q => rfl⟩
  | upd call u =>
    rw [hpc] at hg
    dsimp only at hg
    rcases hu : ustep fault s.c u with ⟨c', out, o'⟩
    have := ustep_bal h hc.op hc.w hu
    rw [hu] at hg
    cases out <;> cases hg <;> exact ⟨rfl, rfl, rfl, _, rfl, this⟩
  | set call p =>
    rw [hpc] at hg
    cases call with
    | modify k fd ev mode =>
      dsimp only at hg ⊢
      obtain ⟨f1, f2, f3, _⟩ := setEvents_frame s.c p ev mode
      have hs := core_same (fun q => ident_setEvents s.c p ev mode q) f1 f2 f3 (fun q => kern_setEvents s.c p ev mode q)
      have hm : Bal s.c [p] (h.run [.touch p]) (setEvents s.c p ev mode).2 [p] [] (h.run [.touch p]) :=
        move_bal fun q => by rw [hs q]
      have h1 := (touch_bal s.c p h).next hm
      cases hb : (setEvents s.c p ev mode).1 with
      | true =>
        rcases hse : setEvents s.c p ev mode with ⟨b, c'⟩
        rw [hse] at hb h1 hg
        cases hb
        cases hg
        exact ⟨rfl, rfl, rfl, _, rfl, h1⟩
      | false =>
        rcases hse : setEvents s.c p ev mode with ⟨b, c'⟩
        rw [hse] at hb h1 hg
        cases hb
        cases hg
        exact ⟨rfl, rfl, rfl, _, rfl, h1.next (drop_bal _ _ _)⟩
    | _ => cases hg
  | del call p =>
    rw [hpc] at hg
    cases hg
    refine ⟨rfl, rfl, rfl, _, rfl, ?_⟩
    have hm : Bal s.c [p] (h.run [.touch p]) (beginDelete fault s.c p).2 [p] (delLost s.c p) (h.run [.touch p]) := by
      intro _
      refine ⟨rfl, fun q => ?_⟩
      obtain ⟨_, f1, f2, _, f3, _⟩ := beginDelete_frame fault s.c p
      have := coreRefs_pk q (ident_beginDelete fault s.c p q) f1 f2 f3
      have := kern_beginDelete fault s.c p q
      omega
    have := ((touch_bal s.c p h).next hm).next (drop_bal _ _ _)
    rw [List.append_nil] at this
    exact this
  | table call =>
    rw [hpc] at hg
    cases call with
    | add k fd ev mode =>
      dsimp only at hg ⊢
      cases ht : s.c.table k fd with
      | some p =>
        rw [ht] at hg
        cases hg
        refine ⟨rfl, rfl, rfl, _, rfl, ?_⟩
        intro _
        refine ⟨by simp [Heap.run, Heap.op, setRc, hn], fun q => ?_⟩
        by_cases hq : q = s.c.next
        · subst hq; simp [Heap.run, Heap.op, setRc, hn, pcRefs]
        · simp [Heap.run, Heap.op, setRc, hq, pcRefs]
      | none =>
        rw [ht] at hg
        cases hg
        refine ⟨rfl, rfl, rfl, _, rfl, ?_⟩
        intro hb
        refine ⟨by simp [Heap.run, Heap.op, setRc, hn], fun q => ?_⟩
        by_cases hq : q = s.c.next
        · subst hq
          have h0 := hb s.c.next
          rw [hn] at h0
          have hk : kern (newPkt k fd ev mode) = 0 := by unfold newPkt; cases k <;> rfl
          have hid : ident (newPkt k fd ev mode) = some (k, fd) := by unfold newPkt; cases k <;> rfl
          have hz : coreRefs s.c s.c.next = 0 := by omega
          rw [hz]
          unfold coreRefs at hz ⊢
          rw [inTable_ident]
          simp only [setPk, if_true, hk, hid] 
          simp [Heap.run, Heap.op, setRc, hn, pcRefs, uRefs]
          omega
        · have ho : ∀ x, (setPk s.c s.c.next x).pk q = s.c.pk q := fun x => setPk_other _ _ hq
          have hit : inTable { setPk s.c s.c.next (newPkt k fd ev mode) with
              next := s.c.next + 1, table := fun k' x => if k' = k ∧ x = fd then some s.c.next else s.c.table k' x } q = inTable s.c q := by
            rw [inTable_ident, inTable_ident]
            dsimp only
            rw [ho]
            cases hid : ident (s.c.pk q) with
            | none => rfl
            | some kf =>
              obtain ⟨k', fd'⟩ := kf
              dsimp only
              by_cases he : k' = k ∧ fd' = fd
              · rw [if_pos he, he.1, he.2, ht]
                simp [Ne.symm hq]
              · rw [if_neg he]
          have : coreRefs { setPk s.c s.c.next (newPkt k fd ev mode) with
              next := s.c.next + 1, table := fun k' x => if k' = k ∧ x = fd then some s.c.next else s.c.table k' x } q = coreRefs s.c q := by
            unfold coreRefs
            rw [hit]
            dsimp only
            rw [ho]
            rfl
          dsimp only
          rw [this]
          simp [Heap.run, Heap.op, setRc, hq, pcRefs, uRefs, Ne.symm hq]
    | modify k fd ev mode =>
      dsimp only at hg ⊢
      cases ht : s.c.table k fd with
      | none => rw [ht] at hg; cases hg; exact ⟨rfl, rfl, rfl, _, rfl, move_bal fun q => rfl⟩
      | some p =>
        rw [ht] at hg
        cases hg
        refine ⟨rfl, rfl, rfl, _, rfl, ?_⟩
        intro hb
        have hp := hb p
        have hin : inTable s.c p = true := by rw [inTable_ident, hc.ids k fd p ht]; simp [ht]
        have h0 : (h.rc p == 0) = false := by
          unfold coreRefs at hp; rw [hin] at hp; simp at hp ⊢; omega
        refine ⟨by simp [Heap.run, Heap.op, h0], fun q => ?_⟩
        by_cases hq : q = p
        · subst hq; simp [Heap.run, Heap.op, setRc, pcRefs]; omega
        · simp [Heap.run, Heap.op, setRc, pcRefs, hq, Ne.symm hq]
    | delete k fd =>
      dsimp only at hg ⊢
      cases ht : s.c.table k fd with
      | none => rw [ht] at hg; cases hg; exact ⟨rfl, rfl, rfl, _, rfl, move_bal fun q => rfl⟩
      | some p =>
        rw [ht] at hg
        cases hg
        refine ⟨rfl, rfl, rfl, _, rfl, ?_⟩
        refine move_bal fun q => ?_
        have hin : inTable s.c p = true := by rw [inTable_ident, hc.ids k fd p ht]; simp [ht]
        show (if inTable _ q then 1 else 0) + s.c.pending.count q + s.c.port.count q + kern (s.c.pk q) + [p].count q =
          (if inTable s.c q then 1 else 0) + s.c.pending.count q + s.c.port.count q + kern (s.c.pk q) + 0
        by_cases hq : q = p
        · subst hq
          rw [hin, inTable_ident]
          dsimp only
          rw [hc.ids k fd q ht]
          simp
          omega
        · have : inTable { s.c with table := fun k' x => if k' = k ∧ x = fd then none else s.c.table k' x } q = inTable s.c q := by
            rw [inTable_ident, inTable_ident]
            dsimp only
            cases hid : ident (s.c.pk q) with
            | none => rfl
            | some kf =>
              obtain ⟨k', fd'⟩ := kf
              dsimp only
              by_cases he : k' = k ∧ fd' = fd
              · rw [if_pos he, he.1, he.2, ht]
                simp [Ne.symm hq]
              · rw [if_neg he]
          rw [this]
          simp [Ne.symm hq]

def phaseRefs : Phase → List PId
  | .upd _ q => [q]
  | .unpoll _ batch | .feed _ batch | .drain _ _ batch => batch
  | .feedUpd _ batch u _ => batch ++ uRefs u
  | _ => []

theorem kern_feed (c p q) : kern ((feed c p).2.pk q) = kern (c.pk q) := by
  by_cases e : q = p
  · subst e
    rcases feed_cases c q with ⟨s, r, e1, e2, e3, e4⟩ | ⟨s, r, e1, e2, e3, e4, e5⟩ | ⟨s, r, e1, e2, e3, e4, e5⟩ | ⟨w, e1, e5⟩ | ⟨e, e1, e2⟩ |
      ⟨e1, e2⟩ | ⟨e1, e2⟩
    · rw [e4, setPk_self, e1]; simp [kern, e2, Sock.taken]
    · rw [e5, setPk_self, e1]; simp [kern, e2, Sock.taken]
    · rw [e5, setPk_self, e1]
      obtain ⟨_, _, _, _, _, f6⟩ := filterEvent_frame s.taken (rawEvent s.interest.key r)
      have f6' : (filterEvent s.taken (rawEvent s.interest.key r)).1.op = .none := f6
      simp [kern, e2, f6']
    · rw [e5, setPk_self, e1]; simp only [kern]; split <;> rfl
    · rw [e2]
    · rw [e2]
    · rw [e2]
  · rw [(feed_frame c p).2.2.2.2.2 q e]

theorem kern_done {k : Sock} (h : kind (.socket k) = .sock true) : kern (.socket k) = 0 := by
  simp only [kind] at h; simp only [kern]; cases hk : k.op <;> simp [hk] at h ⊢

theorem dropEntries_frame2 (c : Core) (batch) : (dropEntries c batch).table = c.table ∧ (dropEntries c batch).pending = c.pending := by
  unfold dropEntries
  induction batch generalizing c with
  | nil => exact ⟨rfl, rfl⟩
  | cons p l ih =>
    rw [List.foldl_cons]
    obtain ⟨a, b⟩ := ih (dropEntry c p)
    obtain ⟨_, d, e, _⟩ := dropEntry_frame c p
    exact ⟨a.trans d, b.trans e⟩

theorem kern_dropEntries (c : Core) (batch q) (h : ∀ p ∈ batch, ∀ k, c.pk p = .socket k → kern (.socket k) = 0) :
    kern ((dropEntries c batch).pk q) = kern (c.pk q) := by
  unfold dropEntries
  induction batch generalizing c with
  | nil => rfl
  | cons p l ih =>
    rw [List.foldl_cons]
    have hd : ∀ q, kern ((dropEntry c p).pk q) = kern (c.pk q) := by
      intro q
      by_cases e : q = p
      · subst e
        rw [dropEntry_pkt]
        cases hq : c.pk q with
        | socket k => rw [h q (List.mem_cons_self ..) k hq]; rfl
        | _ => rfl
      · rw [(dropEntry_frame c p).2.2.2.2.2 q e]
    rw [ih, hd]
    intro x hx k hk
    by_cases e : x = p
    · subst e
      rw [dropEntry_pkt] at hk
      cases hq : c.pk x with
      | socket k' => rw [hq] at hk; cases hk; rfl
      | _ => rw [hq] at hk; cases hk
    · rw [(dropEntry_frame c p).2.2.2.2.2 x e] at hk
      exact h x (List.mem_cons_of_mem _ hx) k hk

theorem dropEntries_bal (c : Core) (batch) (h : Heap) (hd : ∀ p ∈ batch, ∀ k, c.pk p = .socket k → kern (.socket k) = 0) :
    Bal c batch h (dropEntries c batch) [] [] (h.run (batch.flatMap fun p => [.touch p, .drop p])) := by
  intro hc
  obtain ⟨h1, h2⟩ := run_entries batch h fun q => by have := hc q; omega
  refine ⟨h1, fun q => ?_⟩
  have := core_same (fun q => ident_dropEntries c batch q) (dropEntries_frame2 c batch).1 (dropEntries_frame2 c batch).2
    (dropEntries_frame c batch).2 (fun q => kern_dropEntries c batch q hd) q
  have := h2 q
  simp only [List.count_nil]
  omega

theorem waitFail_frame {s : S} {w e s' o} (h : waitFail s w e = (s', o)) : s'.c = s.c ∧ s'.pc = s.pc ∧ s'.cb = s.cb ∧
    s'.cbPost = s.cbPost ∧ phaseRefs s'.phase = [] := by
  unfold waitFail at h; split at h <;> cases h <;> exact ⟨rfl, rfl, rfl, rfl, rfl⟩

theorem goWait_bal {s s' : S} {fault o} (h : Heap) (hc : COk s.c)
    (hd : ∀ p ∈ s.phase.batch, ∀ b, kind (s.c.pk p) = .sock b → b = true) (hl : ∀ p, (feed s.c p).1 ≠ .localClose)
    (hg : goWait s fault = some (s', o)) :
    s'.pc = s.pc ∧ s'.cb = s.cb ∧ s'.cbPost = s.cbPost ∧
      Bal s.c (phaseRefs s.phase) h s'.c (phaseRefs s'.phase) (waitLost s fault) (h.run (waitOps s fault)) := by
  unfold goWait at hg
  unfold waitOps waitLost
  cases hph : s.phase with
  | idle => rw [hph] at hg; cases hg
  | port w => rw [hph] at hg; cases hg
  | stuck => rw [hph] at hg; cases hg
  | top timed cap => rw [hph] at hg; cases hg; exact ⟨rfl, rfl, rfl, move_bal fun q => rfl⟩
  | start w => rw [hph] at hg; cases hg; exact ⟨rfl, rfl, rfl, move_bal fun q => rfl⟩
  | unpoll w batch => rw [hph] at hg; cases hg; exact ⟨rfl, rfl, rfl, move_bal fun q => rfl⟩
  | fin evs => rw [hph] at hg; cases hg; exact ⟨rfl, rfl, rfl, move_bal fun q => rfl⟩
  | fail w e =>
    rw [hph] at hg
    dsimp only at hg
    obtain ⟨h1, h2, h3, h4, h5⟩ := waitFail_frame (Option.some.inj hg)
    refine ⟨h2, h3, h4, ?_⟩
    rw [h1, h5]
    exact move_bal fun q => rfl
  | pop w =>
    rw [hph] at hg
    dsimp only at hg
    cases hp : s.c.pending with
    | nil => rw [hp] at hg; cases hg; exact ⟨rfl, rfl, rfl, move_bal fun q => rfl⟩
    | cons q rest =>
      rw [hp] at hg
      cases hg
      refine ⟨rfl, rfl, rfl, move_bal fun x => ?_⟩
      show (if inTable s.c x then 1 else 0) + rest.count x + s.c.port.count x + kern (s.c.pk x) + [q].count x =
        (if inTable s.c x then 1 else 0) + s.c.pending.count x + s.c.port.count x + kern (s.c.pk x) + 0
      rw [hp]
      simp only [List.count_cons, List.count_nil]
      omega
  | upd w q =>
    rw [hph] at hg
    dsimp only at hg
    have := update_bal (fault := fault) h (hc.op q) (hc.w q)
    rcases hu : update fault s.c q with ⟨r, c', m⟩
    rw [hu] at hg this
    cases r <;> cases hg <;> exact ⟨rfl, rfl, rfl, this⟩
  | feed w l =>
    rw [hph] at hg
    cases l with
    | nil => cases hg
    | cons p batch =>
      dsimp only at hg ⊢
      obtain ⟨_, f1, f2, _, f3, _⟩ := feed_frame s.c p
      have hs := core_same (fun q => ident_feed s.c p q) f1 f2 f3 (fun q => kern_feed s.c p q)
      have hm : Bal s.c [p] (h.run [.touch p]) (feed s.c p).2 [p] [] (h.run [.touch p]) := move_bal fun q => by rw [hs q]
      have h1 := ((touch_bal s.c p h).next hm).frame batch
      have h2 := h1.next ((drop_bal _ p _).frame batch)
      have hp : (batch ++ [p]).Perm (p :: batch) := List.perm_append_singleton p batch
      have h1' := h1.perm hp (List.Perm.refl _)
      have h2' := h2.perm (M' := batch) hp (by rw [List.append_nil])
      rw [← run_append] at h2'
      have hl := hl p
      rcases hf : feed s.c p with ⟨r, c'⟩
      rw [hf] at hg h1' h2' hl
      cases r with
      | localClose => exact absurd rfl hl
      | noEvent => cases hg; exact ⟨rfl, rfl, rfl, h2'⟩
      | notified => cases hg; exact ⟨rfl, rfl, rfl, h2'⟩
      | custom ev => cases hg; exact ⟨rfl, rfl, rfl, h2'⟩
      | update k fd ev => cases hg; exact ⟨rfl, rfl, rfl, by rw [List.append_nil]; exact h1'⟩
  | feedUpd w batch u ev =>
    rw [hph] at hg
    dsimp only at hg ⊢
    rcases hu : ustep (coherent fault u) s.c u with ⟨c', out, o'⟩
    have hb := (ustep_bal h hc.op hc.w hu).frame batch
    rw [coherent_ops, coherent_lost] at hb
    rw [hu] at hg
    cases out with
    | more u' => cases hg; exact ⟨rfl, rfl, rfl, hb⟩
    | done r =>
      simp only [outRefs, List.append_nil] at hb
      cases r with
      | ok => cases hg; exact ⟨rfl, rfl, rfl, hb⟩
      | err e => cases hg; exact ⟨rfl, rfl, rfl, hb⟩
  | drain w e l =>
    rw [hph] at hg hd
    cases l with
    | nil =>
      dsimp only at hg
      obtain ⟨h1, h2, h3, h4, h5⟩ := waitFail_frame (Option.some.inj hg)
      refine ⟨h2, h3, h4, ?_⟩
      rw [h1, h5]
      exact move_bal fun q => rfl
    | cons p batch =>
      cases hg
      refine ⟨rfl, rfl, rfl, ?_⟩
      have := (dropEntries_bal s.c [p] h fun x hx k hpk => by
        have h8 := hd x (by rw [List.mem_singleton.1 hx]; exact List.mem_cons_self ..) _ (by rw [hpk]; rfl)
        exact kern_done (by simp only [kind]; rw [h8])).frame batch
      exact this.perm (List.perm_append_singleton p batch) (by rw [List.append_nil]; exact List.Perm.refl _)

end Polling.IocpM.Rc
