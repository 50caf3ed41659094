import Verif.Proof.PacketRc

/-! The invariant about the counts of all packets. -/

namespace Polling.IocpM.Rc
open Iocp IocpSpec

/-! ### References of the threads -/

def sumT (n : Nat) (pc : Tid → Pc) (q : PId) : Nat := ((List.range n).map fun t => (pcRefs (pc t)).count q).sum

theorem sumT_succ (n pc q) : sumT (n + 1) pc q = sumT n pc q + (pcRefs (pc n)).count q := by
  unfold sumT; rw [List.range_succ]; simp

theorem sumT_congr {pc pc' : Tid → Pc} {n q} (h : ∀ t, t < n → pc' t = pc t) : sumT n pc' q = sumT n pc q := by
  unfold sumT
  congr 1
  apply List.map_congr_left
  intro t ht
  rw [h t (List.mem_range.1 ht)]

theorem sumT_upd {pc : Tid → Pc} {n t : Nat} {x : Pc} {q} (h : t < n) :
    sumT n (upd pc t x) q + (pcRefs (pc t)).count q = sumT n pc q + (pcRefs x).count q := by
  induction n with
  | zero => omega
  | succ n ih =>
    rw [sumT_succ, sumT_succ]
    by_cases e : t = n
    · subst e
      rw [sumT_congr (pc' := upd pc t x) (pc := pc) (fun u hu => upd_other _ _ (show u ≠ t by omega)), upd_self]
      omega
    · have := ih (by omega)
      rw [upd_other pc x (show n ≠ t by omega)]
      omega

theorem sumT_out {pc : Tid → Pc} {n q} (h : ∀ t, t < n → pc t = .out) : sumT n pc q = 0 := by
  induction n with
  | zero => rfl
  | succ n ih => rw [sumT_succ, ih (fun t ht => h t (by omega)), h n (by omega)]; rfl

/-- References in the local variables of threads and callbacks. -/
def locals (n : Nat) (s : S) (q : PId) : Nat := sumT n s.pc q + (phaseRefs s.phase).count q + s.cb.count q + s.cbPost.count q

/-- All references. -/
def refs (n : Nat) (r : R) (q : PId) : Nat :=
  coreRefs r.s.c q + locals n r.s q + r.user q + (if r.alive ∧ q = NOTIFIER then 1 else 0) + r.lost q

theorem coreRefs_port (c : Core) (l : List PId) (q : PId) : coreRefs { c with port := l } q + c.port.count q = coreRefs c q + l.count q := by
  show (if inTable c q then 1 else 0) + c.pending.count q + l.count q + kern (c.pk q) + _ = (if inTable c q then 1 else 0) + _ + _ + _ + _
  omega

theorem count_erase' {l : List PId} {p : PId} (h : p ∈ l) (q : PId) : (l.erase p).count q + (if q = p then 1 else 0) = l.count q := by
  by_cases e : q = p
  · subst e; rw [if_pos rfl, List.count_erase_self]; have := List.count_pos_iff.2 h; omega
  · rw [if_neg e, List.count_erase_of_ne e]; rfl

theorem wok_eff {c o c'} (h : ∀ p, WOk (c.pk p)) (he : Eff c o c') : ∀ p, WOk (c'.pk p) := by
  have one : ∀ {p : PId} {c' : Core}, (∀ q, q ≠ p → c'.pk q = c.pk q) → WOk (c'.pk p) → ∀ q, WOk (c'.pk q) := by
    intro p c' h1 h2 q
    by_cases e : q = p
    · subst e; exact h2
    · rw [h1 q e]; exact h q
  have hup : ∀ fault p, WOk ((update fault c p).2.1.pk p) := by
    intro fault p
    have hp := h p
    rw [update_pkt]
    split
    · trivial
    · rename_i w hw
      rw [hw] at hp
      unfold updateWtb
      split
      · exact hp
      · split
        · exact hp
        · split
          · exact hp
          · exact fun _ => rfl
    · exact hp
  cases he with
  | quiet h1 _ _ _ => rw [h1]; exact h
  | @insert _ t k fd ev mode ht hpk hn htab hok =>
    intro p
    rw [hpk]; dsimp only
    split
    · unfold newPkt
      split
      · trivial
      · exact nofun
    · exact h p
  | remove _ h1 _ _ => rw [h1]; exact h
  | @set t k fd p ev mode hok =>
    have hp := h p
    unfold setEvents
    split
    · exact one (p := p) (fun q hq => setPk_other _ _ hq) (by rw [setPk_self]; trivial)
    · rename_i s hs; rw [hs] at hp
      exact one (p := p) (fun q hq => setPk_other _ _ hq) (by rw [setPk_self]; exact hp)
    · exact h
  | @del t k fd p fault =>
    have hp := h p
    refine one (p := p) (beginDelete_frame fault c p).2.2.2.2.2 ?_
    unfold beginDelete
    dsimp only
    split
    · rename_i s hs
      split
      · exact hp
      · split
        · rw [setPk_self]; trivial
        · rw [setPk_self]; trivial
    · rw [setPk_self]; exact nofun
    · exact hp
  | @update p fault _ _ => exact one (p := p) (update_frame fault c p).2.2.2.2.2 (hup fault p)
  | @feed p k fd ev o hf ho =>
    have hp := h p
    refine one (p := p) (feed_frame c p).2.2.2.2.2 ?_
    rcases feed_cases c p with ⟨s, r, e1, e2, e3, e4⟩ | ⟨s, r, e1, e2, e3, e4, e5⟩ | ⟨s, r, e1, e2, e3, e4, e5⟩ | ⟨w, e1, e5⟩ | ⟨e, e1, e2⟩ |
      ⟨e1, e2⟩ | ⟨e1, e2⟩
    · rw [e4, setPk_self]; trivial
    · rw [e5, setPk_self]; trivial
    · rw [e5, setPk_self]; trivial
    · rw [e5, setPk_self]
      rw [e1] at hp
      split <;> exact hp
    · rw [e2]; exact hp
    · rw [e2]; exact hp
    · rw [e2]; exact hp
  | @feedQuiet p o hf ho =>
    have hp := h p
    refine one (p := p) (feed_frame c p).2.2.2.2.2 ?_
    rcases feed_cases c p with ⟨s, r, e1, e2, e3, e4⟩ | ⟨s, r, e1, e2, e3, e4, e5⟩ | ⟨s, r, e1, e2, e3, e4, e5⟩ | ⟨w, e1, e5⟩ | ⟨e, e1, e2⟩ |
      ⟨e1, e2⟩ | ⟨e1, e2⟩
    · rw [e4, setPk_self]; trivial
    · rw [e5, setPk_self]; trivial
    · rw [e5, setPk_self]; trivial
    · rw [e5, setPk_self]
      rw [e1] at hp
      split <;> exact hp
    · rw [e2]; exact hp
    · rw [e2]; exact hp
    · rw [e2]; exact hp
  | @drop q o ho =>
    intro x
    show WOk ((dropEntry c q).pk x)
    by_cases e : x = q
    · subst e
      rw [dropEntry_pkt]
      have hx := h x
      split
      · trivial
      · exact hx
    · rw [(dropEntry_frame c q).2.2.2.2.2 x e]; exact h x
  | packet hpk hn htab hb =>
    intro p
    rw [hpk]; dsimp only
    split
    · trivial
    · exact h p
  | @complete _ p k mask cancelling r hp hop hr hpk hn htab =>
    rw [hpk]
    exact one (p := p) (fun q hq => setPk_other _ _ hq) (by rw [setPk_self]; trivial)
  | @wtb _ p w status hp hpk hn htab =>
    rw [hpk]
    exact one (p := p) (fun q hq => setPk_other _ _ hq) (by rw [setPk_self]; exact nofun)

theorem reach_wok {threads P s tr} (h : IocpM.Reach threads P s tr) : ∀ p, WOk (s.c.pk p) := by
  induction h with
  | init =>
    intro p
    show WOk (if p = NOTIFIER then Pkt.wakeup else Pkt.free)
    split <;> trivial
  | step h _ hs ih => exact wok_eff ih (reach_eff h hs)

theorem reach_cok {threads P s tr} (h : IocpM.Reach threads P s tr) : COk s.c :=
  ⟨reach_opOk h, reach_wok h, (reach_ti h).low, (reach_ti h).ids⟩

/-! ### A step while the poller is there -/

/-- The references a step with heap operations `ops` accounts for. -/
def Acc (n : Nat) (s s' : S) (user user' : PId → Nat) (lost : List PId) (h h' : Heap) : Prop :=
  h'.bad = h.bad ∧ ∀ q, coreRefs s'.c q + locals n s' q + user' q + lost.count q + h.rc q =
    coreRefs s.c q + locals n s q + user q + h'.rc q

theorem acc_pc {n : Nat} {s s' : S} {t x user h} (hc : s'.c = s.c) (hpc : s'.pc = upd s.pc t x) (h1 : pcRefs (s.pc t) = []) (h2 : pcRefs x = [])
    (hph : s'.phase = s.phase) (hcb : s'.cb = s.cb) (hcp : s'.cbPost = s.cbPost) (ht : t < n) : Acc n s s' user user [] h h := by
  refine ⟨rfl, fun q => ?_⟩
  have := sumT_upd (pc := s.pc) (x := x) (q := q) ht
  rw [h1, h2] at this
  unfold locals
  rw [hc, hpc, hph, hcb, hcp]
  simp only [List.count_nil] at this ⊢
  omega

theorem acc_phase {n : Nat} {s s' : S} {user h} (hc : ∀ q, coreRefs s'.c q + (phaseRefs s'.phase).count q = coreRefs s.c q + (phaseRefs s.phase).count q)
    (hpc : s'.pc = s.pc) (hcb : s'.cb = s.cb) (hcp : s'.cbPost = s.cbPost) : Acc n s s' user user [] h h := by
  refine ⟨rfl, fun q => ?_⟩
  have := hc q
  unfold locals
  rw [hpc, hcb, hcp]
  simp only [List.count_nil]
  omega

theorem step_acc {n : Nat} {r : R} {tr a s' o} (h : IocpM.Reach n Any r.s tr) (hu : userOk r a = true)
    (hb : ∀ q, coreRefs r.s.c q + locals n r.s q + r.user q + (if q = NOTIFIER then 1 else 0) ≤ r.h.rc q)
    (hn : r.h.rc r.s.c.next = 0) (hs : step n r.s a = some (s', o)) :
    Acc n r.s s' r.user (userAfter r a) (actLost r.s a) r.h (r.h.run (actOps r.s a)) := by
  have hc := reach_cok h
  cases a with
  | call t call =>
    unfold step at hs
    dsimp only at hs
    split at hs
    · cases hs
    · rename_i ht
      cases hpc : r.s.pc t with
      | out =>
        rw [hpc] at hs
        dsimp only at hs
        split at hs
        · cases hs
        split at hs
        · cases hs; exact ⟨rfl, fun q => by simp [actLost, actOps, userAfter, Heap.run]⟩
        split at hs
        · cases hs; exact ⟨rfl, fun q => by simp [actLost, actOps, userAfter, Heap.run]⟩
        · cases hs
          refine acc_pc rfl rfl (by rw [hpc]; rfl) ?_ rfl rfl rfl (by omega)
          split <;> rfl
      | _ => rw [hpc] at hs; cases hs
  | go t fault =>
    unfold step at hs
    dsimp only at hs
    split at hs
    · cases hs
    · rename_i ht
      obtain ⟨h1, h2, h3, x, h4, h5⟩ := goCall_bal r.h hc hn hs
      have hsum := fun q => sumT_upd (pc := r.s.pc) (x := x) (q := q) (show t < n by omega)
      have hle : ∀ q, (pcRefs (r.s.pc t)).count q ≤ sumT n r.s.pc q := by
        intro q
        have := sumT_upd (pc := r.s.pc) (x := .out) (q := q) (show t < n by omega)
        rw [show pcRefs .out = [] from rfl, List.count_nil] at this
        omega
      obtain ⟨h6, h7⟩ := h5 fun q => by
        have := hb q; have := hle q; unfold locals at *; omega
      refine ⟨h6, fun q => ?_⟩
      have := hsum q
      have := h7 q
      show coreRefs s'.c q + locals n s' q + r.user q + (goLost r.s t fault).count q + r.h.rc q =
        coreRefs r.s.c q + locals n r.s q + r.user q + (r.h.run (goOps r.s t fault)).rc q
      unfold locals
      rw [h1, h2, h3, h4]
      omega
  | newPacket ev =>
    unfold step at hs
    dsimp only at hs
    split at hs
    · cases hs
    cases hs
    have h0 := hb r.s.c.next
    rw [hn] at h0
    have hfree : r.s.c.pk r.s.c.next = .free := hc.low _ (Nat.le_refl _)
    refine ⟨by simp [actOps, Heap.run, Heap.op, hn], fun q => ?_⟩
    have hcr : coreRefs { setPk r.s.c r.s.c.next (.custom ev) with next := r.s.c.next + 1 } q = coreRefs r.s.c q := by
      have := coreRefs_pk (c := r.s.c) (c' := { setPk r.s.c r.s.c.next (.custom ev) with next := r.s.c.next + 1 }) q ?_ rfl rfl rfl
      · have h9 : kern ((setPk r.s.c r.s.c.next (.custom ev)).pk q) = kern (r.s.c.pk q) := by
          by_cases e : q = r.s.c.next
          · rw [e, setPk_self, hfree]; rfl
          · rw [setPk_other _ _ e]
        have h10 : kern (({ setPk r.s.c r.s.c.next (.custom ev) with next := r.s.c.next + 1 } : Core).pk q) = kern (r.s.c.pk q) := h9
        rw [h10] at this
        exact Nat.add_right_cancel this
      · show ident ((setPk r.s.c r.s.c.next (.custom ev)).pk q) = _
        by_cases e : q = r.s.c.next
        · rw [e, setPk_self, hfree]; rfl
        · rw [setPk_other _ _ e]
    dsimp only
    rw [hcr]
    show coreRefs r.s.c q + locals n r.s q + _ + _ + _ = _
    by_cases e : q = r.s.c.next
    · subst e; simp [actOps, actLost, userAfter, Heap.run, Heap.op, setRc, hn]; omega
    · simp [actOps, actLost, userAfter, Heap.run, Heap.op, setRc, e]
  | post p fault =>
    unfold step at hs
    dsimp only at hs
    have hup : r.user p ≠ 0 := by simpa [userOk] using hu
    cases hp : r.s.c.pk p with
    | custom ev =>
      rw [hp] at hs
      cases fault with
      | none =>
        cases hs
        refine ⟨rfl, fun q => ?_⟩
        show (if inTable r.s.c q then 1 else 0) + r.s.c.pending.count q + (r.s.c.port ++ [p]).count q + kern (r.s.c.pk q) + locals n r.s q +
          setRc r.user p (r.user p - 1) q + ([] : List PId).count q + _ = (if inTable r.s.c q then 1 else 0) + r.s.c.pending.count q +
          r.s.c.port.count q + kern (r.s.c.pk q) + locals n r.s q + r.user q + r.h.rc q
        rw [List.count_append]
        by_cases e : q = p
        · subst e; simp [setRc]; omega
        · simp [setRc, e, Ne.symm e]
      | some er =>
        cases hs
        refine ⟨rfl, fun q => ?_⟩
        by_cases e : q = p
        · subst e; simp [setRc, actLost, userAfter, actOps, Heap.run]; omega
        · simp [setRc, actLost, userAfter, actOps, Heap.run, e, Ne.symm e]
    | _ => rw [hp] at hs; cases hs
  | notifyCas t =>
    unfold step at hs
    dsimp only at hs
    split at hs
    · cases hs
    · rename_i ht
      cases hpc : r.s.pc t with
      | out =>
        rw [hpc] at hs
        dsimp only at hs
        split at hs
        · cases hs; exact ⟨rfl, fun q => by simp [actLost, actOps, userAfter, Heap.run]⟩
        · cases hs
          exact acc_pc rfl rfl (by rw [hpc]; rfl) rfl rfl rfl rfl (by omega)
      | _ => rw [hpc] at hs; cases hs
  | notifyPost t fault =>
    unfold step at hs
    dsimp only at hs
    cases hpc : r.s.pc t with
    | notify =>
      have ht : t < n := by
        by_cases ht : t < n
        · exact ht
        · have := reach_threads h t (by omega); rw [this] at hpc; cases hpc
      have hN : (r.h.rc NOTIFIER == 0) = false := by
        have := hb NOTIFIER
        rw [if_pos rfl] at this
        simp; omega
      have hsum := fun q => sumT_upd (pc := r.s.pc) (x := .out) (q := q) ht
      rw [hpc] at hs hsum
      simp only [pcRefs, List.count_nil] at hsum
      cases fault with
      | none =>
        cases hs
        refine ⟨by simp [actOps, Heap.run, Heap.op, hN], fun q => ?_⟩
        have := hsum q
        show (if inTable r.s.c q then 1 else 0) + r.s.c.pending.count q + (r.s.c.port ++ [NOTIFIER]).count q + kern (r.s.c.pk q) +
          (sumT n (upd r.s.pc t .out) q + (phaseRefs r.s.phase).count q + r.s.cb.count q + r.s.cbPost.count q) +
          r.user q + ([] : List PId).count q + _ = (if inTable r.s.c q then 1 else 0) + r.s.c.pending.count q +
          r.s.c.port.count q + kern (r.s.c.pk q) + (sumT n r.s.pc q + (phaseRefs r.s.phase).count q + r.s.cb.count q + r.s.cbPost.count q)
           + r.user q + _
        rw [List.count_append]
        by_cases e : q = NOTIFIER
        · subst e; simp [actOps, Heap.run, Heap.op, setRc]; omega
        · simp [actOps, Heap.run, Heap.op, setRc, e, Ne.symm e]; omega
      | some er =>
        cases hs
        refine ⟨by simp [actOps, Heap.run, Heap.op, hN], fun q => ?_⟩
        have := hsum q
        show coreRefs r.s.c q +
          (sumT n (upd r.s.pc t .out) q + (phaseRefs r.s.phase).count q + r.s.cb.count q + r.s.cbPost.count q) +
          r.user q + ([NOTIFIER] : List PId).count q + _ =
          coreRefs r.s.c q + (sumT n r.s.pc q + (phaseRefs r.s.phase).count q + r.s.cb.count q + r.s.cbPost.count q)
           + r.user q + _
        by_cases e : q = NOTIFIER
        · subst e; simp [actOps, Heap.run, Heap.op, setRc]; omega
        · simp [actOps, Heap.run, Heap.op, setRc, e, Ne.symm e]; omega
    | _ => rw [hpc] at hs; cases hs
  | waitBegin timed cap =>
    unfold step at hs
    dsimp only at hs
    split at hs
    · rename_i hph
      split at hs
      · cases hs
      · cases hs
        exact acc_phase (fun q => by rw [hph]; rfl) rfl rfl rfl
    · cases hs
  | waitBusy =>
    unfold step at hs
    dsimp only at hs
    split at hs
    · cases hs
    · cases hs; exact ⟨rfl, fun q => by simp [actLost, actOps, userAfter, Heap.run]⟩
  | wait fault =>
    have hei := reach_ei h
    obtain ⟨h1, h2, h3, h4⟩ := goWait_bal r.h hc (by
      intro p hp b hk
      have := hei.once p b hk
      have hpos : 0 < (entries r.s).count p := List.count_pos_iff.2 (by unfold entries; simp [hp])
      cases b
      · simp at this; omega
      · rfl) (feed_not_stuck h) hs
    obtain ⟨h6, h7⟩ := h4 fun q => by
        have := hb q; unfold locals at *; omega
    refine ⟨h6, fun q => ?_⟩
    have := h7 q
    show coreRefs s'.c q + locals n s' q + r.user q + (waitLost r.s fault).count q + r.h.rc q =
        coreRefs r.s.c q + locals n r.s q + r.user q + (r.h.run (waitOps r.s fault)).rc q
    unfold locals
    rw [h1, h2, h3]
    omega
  | get =>
    unfold step at hs
    dsimp only at hs
    split at hs
    · rename_i w hph
      split at hs
      · cases hs
        refine acc_phase (fun q => ?_) rfl rfl rfl
        rw [hph]
        show (if inTable r.s.c q then 1 else 0) + r.s.c.pending.count q + (r.s.c.port.drop w.cap).count q + kern (r.s.c.pk q) +
          (r.s.c.port.take w.cap).count q = (if inTable r.s.c q then 1 else 0) + r.s.c.pending.count q + r.s.c.port.count q + kern (r.s.c.pk q) + 0
        have := congrArg (List.count q) (List.take_append_drop w.cap r.s.c.port)
        rw [List.count_append] at this
        omega
      · cases hs
    · cases hs
  | getFail e =>
    unfold step at hs
    dsimp only at hs
    split at hs
    · rename_i w hph
      cases hs
      exact acc_phase (fun q => by rw [hph]; rfl) rfl rfl rfl
    · cases hs
  | decide expired =>
    unfold step at hs
    dsimp only at hs
    split at hs
    · rename_i w hph
      split at hs <;> cases hs <;> exact acc_phase (fun q => by rw [hph]; rfl) rfl rfl rfl
    · cases hs
  | complete p res =>
    unfold step at hs
    dsimp only at hs
    cases hp : r.s.c.pk p with
    | socket k =>
      rw [hp] at hs
      dsimp only at hs
      cases hop : k.op with
      | inFlight mask cc =>
        rw [hop] at hs
        dsimp only at hs
        split at hs
        · cases hs
          have hk : kern (r.s.c.pk p) = 1 := by rw [hp]; simp [kern, hop]
          have hN : (r.h.rc p == 0) = false := by
            have := hb p
            unfold coreRefs at this
            simp; omega
          refine ⟨by simp [actOps, Heap.run, Heap.op, hN], fun q => ?_⟩
          have hid : ident ((setPk r.s.c p (.socket { k with op := .done res })).pk q) = ident (r.s.c.pk q) := by
            by_cases e : q = p
            · rw [e, setPk_self, hp]; rfl
            · rw [setPk_other _ _ e]
          have hkn : kern ((setPk r.s.c p (.socket { k with op := .done res })).pk q) + (if q = p then 1 else 0) = kern (r.s.c.pk q) := by
            by_cases e : q = p
            · rw [e, setPk_self, hk]; simp [kern]
            · rw [setPk_other _ _ e]; simp [e]
          have hc2 : coreRefs { setPk r.s.c p (.socket { k with op := .done res }) with port := r.s.c.port ++ [p] } q = coreRefs r.s.c q := by
            have h1 := coreRefs_port (setPk r.s.c p (.socket { k with op := .done res })) (r.s.c.port ++ [p]) q
            have h2 := coreRefs_pk (c := r.s.c) (c' := setPk r.s.c p (.socket { k with op := .done res })) q hid rfl rfl rfl
            have h3 : (setPk r.s.c p (.socket { k with op := .done res })).port = r.s.c.port := rfl
            rw [h3, List.count_append] at h1
            have h4 : [p].count q = (if q = p then 1 else 0) := by
              by_cases e : q = p
              · simp [e]
              · simp [e, Ne.symm e]
            have h5 : coreRefs { setPk r.s.c p (.socket { k with op := .done res }) with port := r.s.c.port ++ [p] } q + r.s.c.port.count q =
              coreRefs r.s.c q + r.s.c.port.count q := by
              refine h1.trans ?_
              omega
            exact Nat.add_right_cancel h5
          dsimp only
          rw [hc2]
          show coreRefs r.s.c q + locals n r.s q + _ + _ + _ = _
          simp [actOps, actLost, userAfter, Heap.run, Heap.op]
        · cases hs
      | _ => rw [hop] at hs; cases hs
    | _ => rw [hp] at hs; cases hs
  | fire p =>
    unfold step at hs
    dsimp only at hs
    cases hp : r.s.c.pk p with
    | waitable w =>
      rw [hp] at hs
      dsimp only at hs
      split at hs
      · rename_i hreg
        cases hs
        refine ⟨rfl, fun q => ?_⟩
        have h1 := coreRefs_pk (c := r.s.c) (c' := setPk r.s.c p (.waitable { w with registered := false })) q (by
            by_cases e : q = p
            · rw [e, setPk_self, hp]; rfl
            · rw [setPk_other _ _ e]) rfl rfl rfl
        have h2 : kern ((setPk r.s.c p (.waitable { w with registered := false })).pk q) + (if q = p then 1 else 0) = kern (r.s.c.pk q) := by
          by_cases e : q = p
          · rw [e, setPk_self, hp]; simp [kern, hreg]
          · rw [setPk_other _ _ e]; simp [e]
        show coreRefs (setPk r.s.c p (.waitable { w with registered := false })) q +
          (sumT n r.s.pc q + (phaseRefs r.s.phase).count q + (p :: r.s.cb).count q + r.s.cbPost.count q) + r.user q + 0 + _ =
          coreRefs r.s.c q + (sumT n r.s.pc q + (phaseRefs r.s.phase).count q + r.s.cb.count q + r.s.cbPost.count q) + r.user q + r.h.rc q
        by_cases e : q = p
        · subst e; simp at h2 ⊢; omega
        · simp [e, Ne.symm e] at h2 ⊢; omega
      · cases hs
    | _ => rw [hp] at hs; cases hs
  | callback p =>
    unfold step at hs
    dsimp only at hs
    cases hp : r.s.c.pk p with
    | waitable w =>
      rw [hp] at hs
      dsimp only at hs
      split at hs
      · rename_i hm
        cases hs
        have hN : (r.h.rc p == 0) = false := by
          have := hb p
          have := List.count_pos_iff.2 hm
          unfold locals at *
          simp; omega
        refine ⟨by simp [actOps, Heap.run, Heap.op, hN], fun q => ?_⟩
        have h1 := coreRefs_pk (c := r.s.c) (c' := setPk r.s.c p (.waitable { w with status := .idle, registered := false })) q (by
            by_cases e : q = p
            · rw [e, setPk_self, hp]; rfl
            · rw [setPk_other _ _ e]) rfl rfl rfl
        have h2 : kern ((setPk r.s.c p (.waitable { w with status := .idle, registered := false })).pk q) +
            (actLost r.s (.callback p)).count q = kern (r.s.c.pk q) := by
          simp only [actLost, hp]
          by_cases e : q = p
          · rw [e, setPk_self, hp]; cases hr : w.registered <;> simp [kern, hr]
          · rw [setPk_other _ _ e]; cases hr : w.registered <;> simp [Ne.symm e]
        have h3 := count_erase' hm q
        show coreRefs (setPk r.s.c p (.waitable { w with status := .idle, registered := false })) q +
          (sumT n r.s.pc q + (phaseRefs r.s.phase).count q + (r.s.cb.erase p).count q + (p :: r.s.cbPost).count q) + r.user q + _ + _ =
          coreRefs r.s.c q + (sumT n r.s.pc q + (phaseRefs r.s.phase).count q + r.s.cb.count q + r.s.cbPost.count q) + r.user q + r.h.rc q
        by_cases e : q = p
        · subst e; simp at h3 ⊢; omega
        · simp [e, Ne.symm e] at h3 ⊢; omega
      · cases hs
    | _ => rw [hp] at hs; cases hs
  | callbackPost p fault =>
    unfold step at hs
    dsimp only at hs
    split at hs
    · rename_i hm
      cases hs
      refine ⟨rfl, fun q => ?_⟩
      have h3 := count_erase' hm q
      show _ + (sumT n r.s.pc q + (phaseRefs r.s.phase).count q + r.s.cb.count q + (r.s.cbPost.erase p).count q) + r.user q + _ + _ =
          coreRefs r.s.c q + (sumT n r.s.pc q + (phaseRefs r.s.phase).count q + r.s.cb.count q + r.s.cbPost.count q) + r.user q + r.h.rc q
      cases fault with
      | none =>
        show (if inTable r.s.c q then 1 else 0) + r.s.c.pending.count q + (r.s.c.port ++ [p]).count q + kern (r.s.c.pk q) + _ + _ + 0 + _ = 
          (if inTable r.s.c q then 1 else 0) + r.s.c.pending.count q + r.s.c.port.count q + kern (r.s.c.pk q) + _ + _ + _
        rw [List.count_append]
        by_cases e : q = p
        · subst e; simp at h3 ⊢; omega
        · simp [e, Ne.symm e] at h3 ⊢
      | some er =>
        by_cases e : q = p
        · subst e; simp [actLost] at h3 ⊢; omega
        · simp [actLost, e, Ne.symm e] at h3 ⊢
    · cases hs

/-! ### New packets -/

theorem alloc_update {c p q} : HOp.alloc q ∉ updateOps c p := by
  unfold updateOps
  cases c.pk p with
  | socket s => dsimp only; cases s.status <;> cases s.waitingOnDelete <;> cases s.inUse <;> simp
  | waitable w => dsimp only; repeat' split
                  all_goals simp
  | _ => simp

theorem alloc_ustep {fault c u q} : HOp.alloc q ∉ ustepOps fault c u := by
  unfold ustepOps
  cases u with
  | run p => exact alloc_update
  | drain p n x =>
    dsimp only
    intro h
    rcases List.mem_append.1 h with h | h
    · exact alloc_update h
    · split at h <;> simp at h
  | _ => simp

theorem alloc_wait {s fault q} : HOp.alloc q ∉ waitOps s fault := by
  unfold waitOps
  split
  · exact alloc_update
  · intro h
    simp only [List.cons_append, List.nil_append, List.mem_cons] at h
    rcases h with h | h
    · cases h
    · split at h <;> simp at h
  · exact alloc_ustep
  · simp
  · simp

/-- Names that are not in use stay unused. -/
theorem step_zero {n : Nat} {s : S} {a s' o} {h : Heap} (hz : ∀ q, s.c.next ≤ q → h.rc q = 0) (hb : (h.run (actOps s a)).bad = false)
    (hs : step n s a = some (s', o)) (hn : s.c.next ≤ s'.c.next) (q : PId) (hq : s'.c.next ≤ q) : (h.run (actOps s a)).rc q = 0 := by
  have hq' := hz q (by omega)
  cases a with
  | go t fault =>
    change (h.run (goOps s t fault)).bad = false at hb
    change (h.run (goOps s t fault)).rc q = 0
    simp only [step] at hs
    split at hs
    · cases hs
    unfold goOps at hb ⊢
    unfold goCall at hs
    cases hpc : s.pc t with
    | table call =>
      rw [hpc] at hs hb
      cases call with
      | add k fd ev mode =>
        dsimp only at hs hb ⊢
        cases ht : s.c.table k fd with
        | some p =>
          have h0 := hz s.c.next (Nat.le_refl _)
          by_cases e : q = s.c.next
          · subst e; simp [Heap.run, Heap.op, setRc]
          · simp [Heap.run, Heap.op, setRc, e, hq']
        | none =>
          rw [ht] at hs
          cases hs
          have e : q ≠ s.c.next := by have : s.c.next + 1 ≤ q := hq; omega
          simp [Heap.run, Heap.op, setRc, e, hq']
      | modify k fd ev mode =>
        dsimp only at hb ⊢
        refine run_zero _ h q hb hq' ?_
        split <;> simp
      | delete k fd => exact hq'
    | set call p =>
      rw [hpc] at hb
      refine run_zero _ h q hb hq' ?_
      cases call with
      | modify k fd ev mode =>
        dsimp only
        intro hm
        simp only [List.cons_append, List.nil_append, List.mem_cons] at hm
        rcases hm with hm | hm
        · cases hm
        · split at hm <;> simp at hm
      | _ => simp
    | del call p => rw [hpc] at hb; exact run_zero _ h q hb hq' (by simp)
    | upd call u => rw [hpc] at hb; exact run_zero _ h q hb hq' alloc_ustep
    | _ => exact hq'
  | newPacket ev =>
    unfold step at hs
    dsimp only at hs
    split at hs
    · cases hs
    cases hs
    have e : q ≠ s.c.next := by have : s.c.next + 1 ≤ q := hq; omega
    simp [actOps, Heap.run, Heap.op, setRc, e, hq']
  | wait fault => exact run_zero _ h q hb hq' alloc_wait
  | notifyPost t fault => exact run_zero _ h q hb hq' (by simp [actOps])
  | complete p r => exact run_zero _ h q hb hq' (by simp [actOps])
  | callback p => exact run_zero _ h q hb hq' (by simp [actOps])
  | _ => exact hq'

theorem eff_next {c o c'} (he : Eff c o c') : c.next ≤ c'.next := by
  cases he with
  | quiet _ h _ _ => omega
  | insert _ _ h _ _ => omega
  | remove _ _ h _ => omega
  | @set t k fd p ev mode _ => exact Nat.le_of_eq (by rw [(setEvents_frame c p ev mode).2.2.2])
  | @del t k fd p fault => exact Nat.le_of_eq (by rw [(beginDelete_frame fault c p).1])
  | @update p fault _ _ => exact Nat.le_of_eq (by rw [(update_frame fault c p).1])
  | @feed p _ _ _ _ _ _ => exact Nat.le_of_eq (by rw [(feed_frame c p).1])
  | @feedQuiet p _ _ _ => exact Nat.le_of_eq (by rw [(feed_frame c p).1])
  | @drop p _ _ => exact Nat.le_of_eq (by rw [(dropEntries_frame _ [p]).1])
  | packet _ h _ _ => omega
  | complete _ _ _ _ h _ => omega
  | wtb _ _ h _ => omega

/-! ### The invariant -/

structure Inv (n : Nat) (r : R) : Prop where
  good : r.h.bad = false
  bal : ∀ q, r.h.rc q = refs n r q
  zero : ∀ q, r.s.c.next ≤ q → r.h.rc q = 0
  ok : COk r.s.c
  live : r.alive = true → ∃ tr, IocpM.Reach n Any r.s tr
  dead : r.alive = false → r.s.c.port = [] ∧ r.s.c.pending = [] ∧ r.s.c.table = (fun _ _ => none) ∧ r.s.phase = .idle ∧ ∀ t, r.s.pc t = .out

theorem inv_init (n) : Inv n init where
  good := rfl
  bal q := by
    have : sumT n (fun _ => Pc.out) q = 0 := sumT_out fun _ _ => rfl
    unfold refs locals coreRefs
    rw [inTable_ident]
    show (if q = NOTIFIER then 1 else 0) = _ + 0 + 0 + _ + (sumT n (fun _ => Pc.out) q + 0 + 0 + 0) + 0 + _ + 0
    rw [this]
    by_cases e : q = NOTIFIER
    · subst e; rfl
    · simp [init, IocpM.init, e, ident, kern]
  zero q hq := by
    show (if q = NOTIFIER then 1 else 0) = 0
    have : 1 ≤ q := hq
    rw [if_neg (by unfold NOTIFIER; omega)]
  ok := reach_cok (P := Any) (threads := n) .init
  live _ := ⟨[], .init⟩
  dead := nofun

theorem inv_act {n r a s' o} (hi : Inv n r) (ha : r.alive = true) (hu : userOk r a = true) (hs : step n r.s a = some (s', o)) :
    Inv n { r with s := s', h := r.h.run (actOps r.s a), user := userAfter r a, lost := addLost r.lost (actLost r.s a) } := by
  obtain ⟨tr, hr⟩ := hi.live ha
  have hz := hi.zero r.s.c.next (Nat.le_refl _)
  obtain ⟨h1, h2⟩ := step_acc hr hu (fun q => by
    rw [hi.bal q]; unfold refs; rw [ha]; simp only [true_and]; omega) hz hs
  have hr' := hr.step trivial hs
  have hn := eff_next (reach_eff hr hs)
  refine ⟨h1.trans hi.good, fun q => ?_, fun q hq => step_zero hi.zero (h1.trans hi.good) hs hn q hq, reach_cok hr', fun _ => ⟨_, hr'⟩, ?_⟩
  · have := h2 q
    have h4 := hi.bal q
    unfold refs at h4 ⊢
    simp only [addLost]
    omega
  · intro hd; rw [ha] at hd; cases hd

theorem inv_user {n r p d} (hi : Inv n r) (hp : r.user p ≠ 0) (hd : d = HOp.clone p ∧ k = r.user p + 1 ∨ d = HOp.drop p ∧ k = r.user p - 1) :
    Inv n { r with h := r.h.run [d], user := setRc r.user p k } := by
  have hN : r.h.rc p ≠ 0 := by rw [hi.bal p]; unfold refs; omega
  have hb := hi.bal
  unfold refs at hb
  refine ⟨?_, fun q => ?_, fun q hq => ?_, hi.ok, hi.live, hi.dead⟩
  · rcases hd with ⟨rfl, _⟩ | ⟨rfl, _⟩ <;> simp [Heap.run, Heap.op, hi.good, hN]
  · have := hb q
    have hNp := hb p
    unfold refs
    dsimp only
    by_cases e : q = p
    · subst e
      rcases hd with ⟨rfl, rfl⟩ | ⟨rfl, rfl⟩ <;> simp only [Heap.run, Heap.op, setRc, List.foldl, if_true] <;> omega
    · rcases hd with ⟨rfl, rfl⟩ | ⟨rfl, rfl⟩ <;> simp only [Heap.run, Heap.op, setRc, List.foldl, e, if_false] <;> omega
  · have h0 := hi.zero q hq
    have e : q ≠ p := by rintro rfl; exact hN h0
    rcases hd with ⟨rfl, rfl⟩ | ⟨rfl, rfl⟩ <;> simp [Heap.run, Heap.op, setRc, e, h0]

theorem inv_dropPoller {n r r'} (hi : Inv n r) (hs : dropPoller n r = some r') : Inv n r' := by
  unfold dropPoller at hs
  split at hs
  · rename_i hc
    cases hs
    simp only [Bool.and_eq_true, decide_eq_true_eq, List.all_eq_true, List.mem_range] at hc
    obtain ⟨⟨ha, hph⟩, hpc⟩ := hc
    obtain ⟨tr, hr⟩ := hi.live ha
    have hpc' : ∀ t, r.s.pc t = .out := fun t => by
      by_cases ht : t < n
      · exact hpc t ht
      · exact reach_threads hr t (by omega)
    have hcount : ∀ q, ((List.range r.s.c.next).filter (inTable r.s.c)).count q = if inTable r.s.c q then 1 else 0 := by
      intro q
      cases hin : inTable r.s.c q with
      | false =>
        rw [List.count_eq_zero.2]
        · rfl
        · intro hm; have := (List.mem_filter.1 hm).2; rw [hin] at this; cases this
      | true =>
        have hlt : q < r.s.c.next := by
          by_cases hlt : q < r.s.c.next
          · exact hlt
          · rw [inTable_ident, hi.ok.low q (by omega)] at hin; cases hin
        rw [List.count_filter hin, List.nodup_range.count, if_pos (List.mem_range.2 hlt)]
        rfl
    have hsum : ∀ q, sumT n r.s.pc q = 0 := fun q => sumT_out fun t _ => hpc' t
    have hops : ((List.range r.s.c.next).filter (inTable r.s.c)).map HOp.drop ++ r.s.c.pending.map .drop ++ [.drop NOTIFIER] =
        ((List.range r.s.c.next).filter (inTable r.s.c) ++ r.s.c.pending ++ [NOTIFIER]).map .drop := by simp
    have hsplit : ∀ q, ((List.range r.s.c.next).filter (inTable r.s.c) ++ r.s.c.pending ++ [NOTIFIER]).count q =
        (if inTable r.s.c q then 1 else 0) + r.s.c.pending.count q + (if q = NOTIFIER then 1 else 0) := by
      intro q
      rw [List.count_append, List.count_append, hcount]
      by_cases e : q = NOTIFIER
      · subst e; simp
      · simp [e, Ne.symm e]
    have hb := hi.bal
    unfold refs locals coreRefs at hb
    rw [ha] at hb
    simp only [true_and] at hb
    obtain ⟨h1, h2⟩ := run_drops ((List.range r.s.c.next).filter (inTable r.s.c) ++ r.s.c.pending ++ [NOTIFIER]) r.h (fun q => by
      rw [hsplit, hb q]; omega)
    rw [← hops] at h1 h2
    refine ⟨h1.trans hi.good, fun q => ?_, fun q hq => ?_, ?_, nofun, fun _ => ⟨rfl, rfl, rfl, hph, hpc'⟩⟩
    · have h3 := h2 q
      have h4 := hb q
      rw [hsplit] at h3
      have hin : inTable { r.s.c with table := fun _ _ => none, pending := [], port := [] } q = false := by
        rw [inTable_ident]; dsimp only; split <;> rfl
      unfold refs locals coreRefs
      dsimp only
      rw [hin]
      simp only [addLost, List.count_nil, Bool.false_eq_true, if_false, false_and]
      omega
    · have := h2 q
      have := hi.zero q hq
      dsimp only
      omega
    · exact ⟨hi.ok.op, hi.ok.w, hi.ok.low, nofun⟩
  · cases hs

theorem ok_port {c : Core} (h : COk c) (l) : COk { c with port := l } := ⟨h.op, h.w, h.low, h.ids⟩

theorem inv_dead {n r a r'} (hi : Inv n r) (ha : r.alive = false) (hs : deadStep n r a = some r') : Inv n r' := by
  obtain ⟨d1, d2, d3, d4, d5⟩ := hi.dead ha
  have hb := hi.bal
  unfold refs locals at hb
  have heff : ∀ {s' o}, step n r.s a = some (s', o) → Eff r.s.c o s'.c := fun h => step_eff (by
    intro t call hc; rw [d5 t] at hc; cases hc) h
  have hnoids : ∀ {c : Core}, c.table = r.s.c.table → ∀ k fd p, c.table k fd = some p → ident (c.pk p) = some (k, fd) := by
    intro c hc k fd p h; rw [hc, d3] at h; cases h
  cases a with
  | complete p res =>
    simp only [deadStep] at hs
    obtain ⟨⟨s', o⟩, hst, rfl⟩ := Option.map_eq_some_iff.1 hs
    have he := heff hst
    have hop' := opOk_eff hi.ok.op he
    have hw' := wok_eff hi.ok.w he
    unfold step at hst
    dsimp only at hst
    cases hp : r.s.c.pk p with
    | socket k =>
      rw [hp] at hst
      dsimp only at hst
      cases hop : k.op with
      | inFlight mask cc =>
        rw [hop] at hst
        dsimp only at hst
        split at hst
        · cases hst
          have hk : kern (r.s.c.pk p) = 1 := by rw [hp]; simp [kern, hop]
          have hN : r.h.rc p ≠ 0 := by
            rw [hb p]; unfold coreRefs; omega
          have hlt : p < r.s.c.next := by
            by_cases h : p < r.s.c.next
            · exact h
            · rw [hi.ok.low p (by omega)] at hp; cases hp
          refine ⟨by simp [Heap.run, Heap.op, hi.good, hN], fun q => ?_, hi.zero, ⟨hop', hw', ?_, hnoids rfl⟩,
            fun h => (by rw [ha] at h; cases h), fun _ => ⟨rfl, d2, d3, d4, d5⟩⟩
          · have hkn : kern ((setPk r.s.c p (.socket { k with op := .done res })).pk q) + [p].count q = kern (r.s.c.pk q) := by
              by_cases e : q = p
              · rw [e, setPk_self, hk]; simp [kern]
              · rw [setPk_other _ _ e]; simp [Ne.symm e]
            have hid : ident ((setPk r.s.c p (.socket { k with op := .done res })).pk q) = ident (r.s.c.pk q) := by
              by_cases e : q = p
              · rw [e, setPk_self, hp]; rfl
              · rw [setPk_other _ _ e]
            have h2 := coreRefs_pk (c := r.s.c) (c' := { setPk r.s.c p (.socket { k with op := .done res }) with port := [] }) q hid rfl rfl d1.symm
            have h3 := hb q
            unfold refs locals
            show r.h.rc q = coreRefs { setPk r.s.c p (.socket { k with op := .done res }) with port := [] } q +
              (sumT n r.s.pc q + (phaseRefs r.s.phase).count q + r.s.cb.count q + r.s.cbPost.count q) + r.user q + (if r.alive = true ∧ q = NOTIFIER then 1 else 0) + (r.lost q + [p].count q)
            have h4 : kern ((({ setPk r.s.c p (.socket { k with op := .done res }) with port := [] } : Core)).pk q) + [p].count q = kern (r.s.c.pk q) := hkn
            generalize coreRefs { setPk r.s.c p (.socket { k with op := .done res }) with port := [] } q = A at h2 ⊢
            generalize kern ((({ setPk r.s.c p (.socket { k with op := .done res }) with port := [] } : Core)).pk q) = B at h2 h4
            omega
          · intro q hq
            have hq' : r.s.c.next ≤ q := hq
            show (setPk r.s.c p _).pk q = _
            rw [setPk_other _ _ (show q ≠ p by omega)]
            exact hi.ok.low q hq'
        · cases hst
      | _ => rw [hop] at hst; cases hst
    | _ => rw [hp] at hst; cases hst
  | fire p =>
    simp only [deadStep] at hs
    obtain ⟨⟨s', o⟩, hst, rfl⟩ := Option.map_eq_some_iff.1 hs
    have he := heff hst
    have hop' := opOk_eff hi.ok.op he
    have hw' := wok_eff hi.ok.w he
    unfold step at hst
    dsimp only at hst
    cases hp : r.s.c.pk p with
    | waitable w =>
      rw [hp] at hst
      dsimp only at hst
      split at hst
      · rename_i hreg
        cases hst
        have hlt : p < r.s.c.next := by
          by_cases h : p < r.s.c.next
          · exact h
          · rw [hi.ok.low p (by omega)] at hp; cases hp
        refine ⟨hi.good, fun q => ?_, hi.zero, ⟨hop', hw', ?_, hnoids rfl⟩,
            fun h => (by rw [ha] at h; cases h), fun _ => ⟨d1, d2, d3, d4, d5⟩⟩
        · have h1 := coreRefs_pk (c := r.s.c) (c' := setPk r.s.c p (.waitable { w with registered := false })) q (by
            by_cases e : q = p
            · rw [e, setPk_self, hp]; rfl
            · rw [setPk_other _ _ e]) rfl rfl rfl
          have h2 : kern ((setPk r.s.c p (.waitable { w with registered := false })).pk q) + (if q = p then 1 else 0) = kern (r.s.c.pk q) := by
            by_cases e : q = p
            · rw [e, setPk_self, hp]; simp [kern, hreg]
            · rw [setPk_other _ _ e]; simp [e]
          have h3 := hb q
          unfold refs locals
          show r.h.rc q = coreRefs (setPk r.s.c p (.waitable { w with registered := false })) q +
            (sumT n r.s.pc q + (phaseRefs r.s.phase).count q + (p :: r.s.cb).count q + r.s.cbPost.count q) + r.user q + (if r.alive = true ∧ q = NOTIFIER then 1 else 0) + r.lost q
          have h4 : (p :: r.s.cb).count q = r.s.cb.count q + (if q = p then 1 else 0) := by
            by_cases e : q = p
            · simp [e]
            · simp [e, Ne.symm e]
          rw [h4]
          omega
        · intro q hq
          have hq' : r.s.c.next ≤ q := hq
          show (setPk r.s.c p _).pk q = _
          rw [setPk_other _ _ (show q ≠ p by omega)]
          exact hi.ok.low q hq'
      · cases hst
    | _ => rw [hp] at hst; cases hst
  | callback p =>
    simp only [deadStep] at hs
    split at hs
    · rename_i hm
      cases hs
      have hN : r.h.rc p ≠ 0 := by
        rw [hb p]
        have := List.count_pos_iff.2 hm
        omega
      refine ⟨by simp [Heap.run, Heap.op, hi.good, hN], fun q => ?_, fun q hq => ?_, hi.ok,
            fun h => (by rw [ha] at h; cases h), fun _ => ⟨d1, d2, d3, d4, d5⟩⟩
      · have h3 := count_erase' hm q
        have h4 := hb q
        have h5 : r.h.rc q = ((r.h.run [.touch p, .drop p]).rc q) + (if q = p then 1 else 0) := by
          by_cases e : q = p
          · subst e; simp [Heap.run, Heap.op, setRc]; omega
          · simp [Heap.run, Heap.op, setRc, e]
        unfold refs locals
        dsimp only
        omega
      · have h0 := hi.zero q hq
        have e : q ≠ p := by rintro rfl; exact hN h0
        simp [Heap.run, Heap.op, setRc, e, h0]
    · cases hs
  | callbackPost p fault =>
    simp only [deadStep] at hs
    obtain ⟨⟨s', o⟩, hst, rfl⟩ := Option.map_eq_some_iff.1 hs
    unfold step at hst
    dsimp only at hst
    split at hst
    · rename_i hm
      cases hst
      have hcc : ∀ fault : Option Err, ({ (if fault = none then { r.s.c with port := r.s.c.port ++ [p] } else r.s.c) with port := [] } : Core) = r.s.c := by
        intro fault
        have : ({ r.s.c with port := [] } : Core) = r.s.c := by rw [← d1]
        split <;> exact this
      refine ⟨hi.good, fun q => ?_, ?_, ?_,
            fun h => (by rw [ha] at h; cases h), fun _ => ⟨rfl, ?_⟩⟩
      · have h3 := count_erase' hm q
        have h4 := hb q
        unfold refs locals
        dsimp only
        rw [hcc]
        show r.h.rc q = coreRefs r.s.c q + _ + _ + (if r.alive = true ∧ q = NOTIFIER then 1 else 0) + (r.lost q + [p].count q)
        have h5 : [p].count q = (if q = p then 1 else 0) := by
          by_cases e : q = p
          · simp [e]
          · simp [e, Ne.symm e]
        rw [h5]
        omega
      · cases fault <;> exact hi.zero
      · cases fault <;> exact ok_port hi.ok []
      · cases fault <;> exact ⟨d2, d3, d4, d5⟩
    · cases hst
  | newPacket ev =>
    simp only [deadStep] at hs
    obtain ⟨⟨s', o⟩, hst, rfl⟩ := Option.map_eq_some_iff.1 hs
    have he := heff hst
    have hop' := opOk_eff hi.ok.op he
    have hw' := wok_eff hi.ok.w he
    have hn := hi.zero r.s.c.next (Nat.le_refl _)
    unfold step at hst
    dsimp only at hst
    split at hst
    · cases hst
    cases hst
    have hfree : r.s.c.pk r.s.c.next = .free := hi.ok.low _ (Nat.le_refl _)
    refine ⟨by simp [actOps, Heap.run, Heap.op, hi.good, hn], fun q => ?_, fun q hq => ?_, ⟨hop', hw', ?_, hnoids rfl⟩,
            fun h => (by rw [ha] at h; cases h), fun _ => ⟨d1, d2, d3, d4, d5⟩⟩
    · have hcr : coreRefs { setPk r.s.c r.s.c.next (.custom ev) with next := r.s.c.next + 1 } q = coreRefs r.s.c q := by
        have := coreRefs_pk (c := r.s.c) (c' := { setPk r.s.c r.s.c.next (.custom ev) with next := r.s.c.next + 1 }) q ?_ rfl rfl rfl
        · have h9 : kern ((setPk r.s.c r.s.c.next (.custom ev)).pk q) = kern (r.s.c.pk q) := by
            by_cases e : q = r.s.c.next
            · rw [e, setPk_self, hfree]; rfl
            · rw [setPk_other _ _ e]
          have h10 : kern (({ setPk r.s.c r.s.c.next (.custom ev) with next := r.s.c.next + 1 } : Core).pk q) = kern (r.s.c.pk q) := h9
          rw [h10] at this
          exact Nat.add_right_cancel this
        · show ident ((setPk r.s.c r.s.c.next (.custom ev)).pk q) = _
          by_cases e : q = r.s.c.next
          · rw [e, setPk_self, hfree]; rfl
          · rw [setPk_other _ _ e]
      have h4 := hb q
      unfold refs locals
      dsimp only
      rw [hcr]
      by_cases e : q = r.s.c.next
      · subst e; simp only [actOps, userAfter, Heap.run, Heap.op, setRc, List.foldl, if_true]; omega
      · simp only [actOps, userAfter, Heap.run, Heap.op, setRc, List.foldl, e, if_false]; omega
    · have hq' : r.s.c.next + 1 ≤ q := hq
      have e : q ≠ r.s.c.next := by omega
      simp [actOps, Heap.run, Heap.op, setRc, e, hi.zero q (by omega)]
    · intro q hq
      have hq' : r.s.c.next + 1 ≤ q := hq
      show (setPk r.s.c r.s.c.next _).pk q = _
      rw [setPk_other _ _ (show q ≠ r.s.c.next by omega)]
      exact hi.ok.low q (by omega)
  | _ => simp [deadStep] at hs

theorem inv_step {n r a r'} (hi : Inv n r) (hs : rstep n r a = some r') : Inv n r' := by
  cases a with
  | act a =>
    simp only [rstep] at hs
    cases ha : r.alive with
    | true =>
      rw [ha, if_pos rfl] at hs
      split at hs
      · rename_i hu
        obtain ⟨⟨s', o⟩, hst, rfl⟩ := Option.map_eq_some_iff.1 hs
        have := inv_act hi ha hu hst
        rw [ha] at this
        exact this
      · cases hs
    | false =>
      rw [ha] at hs
      exact inv_dead hi ha hs
  | userClone p =>
    simp only [rstep] at hs
    split at hs
    · cases hs
    · rename_i hp; cases hs; exact inv_user hi hp (.inl ⟨rfl, rfl⟩)
  | userDrop p =>
    simp only [rstep] at hs
    split at hs
    · cases hs
    · rename_i hp; cases hs; exact inv_user hi hp (.inr ⟨rfl, rfl⟩)
  | dropPoller => exact inv_dropPoller hi hs

theorem reach_inv {n P r} (h : Reach n P r) : Inv n r := by
  induction h with
  | init => exact inv_init n
  | step _ _ hs ih => exact inv_step ih hs

end Polling.IocpM.Rc
