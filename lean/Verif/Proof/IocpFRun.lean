import Verif.Proof.IocpFPlain

/- Sections that are not interrupted do what the sections of the coarse machine do at once: every behaviour of the coarse machine,
except that cancelling an operation fails after it completed, is one of the fine-grained machine. -/

namespace Polling.IocpF
open Iocp IocpSpec IocpM

/-- The accesses of a section up to its end. -/
inductive Run (fault : Option Err) : Pos → Pkt → Buf → Out → Pkt → Buf → List Mark → Prop
  | fin {out x b} : Run fault (.fin out) x b out x b []
  | step {pos x b pos' x' b' mk out x'' b'' ms} : stepPkt fault x b pos = some (pos', x', b', mk) → Run fault pos' x' b' out x'' b'' ms →
      Run fault pos x b out x'' b'' (mk.toList ++ ms)

theorem Run.sock {fault pos s b pos' s' b' mk out x'' b'' ms} (h : stepSock fault s b pos = some (pos', s', b', mk))
    (hr : Run fault pos' (.socket s') b' out x'' b'' ms) : Run fault pos (.socket s) b out x'' b'' (mk.toList ++ ms) := by
  refine .step ?_ hr
  show (stepSock fault s b pos).map _ = _
  rw [h]; rfl

theorem Run.wtb {fault pos w b pos' w' mk out x'' b'' ms} (h : stepWtb fault w pos = some (pos', w', mk))
    (hr : Run fault pos' (.waitable w') b out x'' b'' ms) : Run fault pos (.waitable w) b out x'' b'' (mk.toList ++ ms) := by
  refine .step ?_ hr
  show (stepWtb fault w pos).map _ = _
  rw [h]; rfl

/-- A section from its beginning does what the coarse machine does at once. -/
def Whole (k : Kind) (fault : Option Err) (pos : Pos) (x : Pkt) (b : Buf) (marks : Mark → List Mark) : Prop :=
  ∃ b', Run fault pos x b (atomic k fault x).1 (atomic k fault x).2.1 b' (marks (atomic k fault x).2.2)

theorem whole_of {k fault pos x b marks out x' mark b'} (ha : atomic k fault x = (out, x', mark)) (h : Run fault pos x b out x' b' (marks mark)) :
    Whole k fault pos x b marks := by
  unfold Whole
  rw [ha]
  exact ⟨b', h⟩

theorem run_setStatus {fault s b} : Run fault .setStatus (.socket s) b (.set (match s.status with | .polling flags => decide (s.mask ≠ flags) | _ => true))
    (.socket s) b [] := by
  have h0 : stepSock fault s b .setStatus = some (match s.status with | .polling flags => .setFlags flags | _ => .fin (.set true), s, b, none) := rfl
  cases hs : s.status with
  | polling flags =>
    rw [hs] at h0
    exact .sock (ms := []) h0 (.sock (s' := s) (b' := b) (pos' := .fin (.set (decide (s.mask ≠ flags)))) (mk := none) (ms := []) rfl .fin)
  | idle => rw [hs] at h0; exact .sock (ms := []) h0 .fin
  | cancelled => rw [hs] at h0; exact .sock (ms := []) h0 .fin

theorem run_set {ev mode fault s b} : Whole (.set ev mode) fault (.setInterest ev mode) (.socket s) b fun _ => [] := by
  refine ⟨b, ?_⟩
  refine .sock (s' := { s with interest := ev }) (b' := b) (pos' := .setMode mode) (mk := none) (ms := []) rfl ?_
  refine .sock (s' := { s with interest := ev, mode := mode }) (b' := b) (pos' := .setError) (mk := none) (ms := []) rfl ?_
  refine .sock (s' := { s with interest := ev, mode := mode, interestError := true }) (b' := b) (pos' := .setStatus) (mk := none) (ms := []) rfl ?_
  exact run_setStatus

theorem run_wset {ev mode fault w b} : Whole (.set ev mode) fault (.wsetInterest ev mode) (.waitable w) b fun _ => [] :=
  ⟨b, .wtb (mk := none) rfl (.wtb (mk := none) rfl (.wtb (mk := none) (ms := []) rfl .fin))⟩

/-- `cancel` from the check of the status on. -/
theorem run_cancel {fault s b del} (hF : fault = none ∨ b.status = .pending) :
    Run fault (.pending del) (.socket s) b (cancelOut del (cancel fault s).1) (.socket (cancel fault s).2) b [cancelMark del (cancel fault s).1] := by
  by_cases hb : b.status = .pending
  · refine .sock (mk := none) (pos' := .cancelIo del) (if_pos hb) ?_
    cases fault with
    | none => exact .sock (mk := some (cancelMark del .ok)) rfl (.sock (mk := none) (ms := []) rfl .fin)
    | some e => exact .sock (mk := some (cancelMark del (.err e))) (ms := []) rfl .fin
  · rcases hF with rfl | h
    · exact .sock (mk := some (cancelMark del .ok)) (pos' := .cancelled del) (if_neg hb) (.sock (mk := none) (ms := []) rfl .fin)
    · exact absurd h hb

theorem run_upd {fault s b} (hF : ∀ flags, s.status = .polling flags → fault = none ∨ b.status = .pending) :
    Whole .upd fault .wod (.socket s) b fun m => [m] := by
  cases h1 : s.waitingOnDelete with
  | true =>
    exact whole_of (upd_deleted h1) (.sock (mk := some .tau) (pos' := .fin (.upd .ok)) (ms := []) (if_pos h1) .fin)
  | false =>
    have hw : stepSock fault s b .wod = some (.status, s, b, none) := if_neg (by rw [h1]; decide)
    cases h2 : s.status with
    | polling flags =>
      have hs : stepSock fault s b .status = some (.flags flags, s, b, none) := by
        show (match s.status with | .polling flags => _ | .cancelled => _ | .idle => _) = _
        rw [h2]
      by_cases h3 : s.mask ≠ flags
      · refine whole_of (b' := b) (upd_cancel h1 h2 h3) (.sock hw (.sock hs (.sock (mk := none) (pos' := .pending false) (if_pos h3) ?_)))
        exact run_cancel (del := false) (hF flags h2)
      · exact whole_of (upd_same h1 h2 h3) (.sock hw (.sock hs (.sock (mk := some .tau) (pos' := .fin (.upd .ok)) (ms := []) (if_neg h3) .fin)))
    | cancelled =>
      have hs : stepSock fault s b .status = some (.fin (.upd .ok), s, b, some .tau) := by
        show (match s.status with | .polling flags => _ | .cancelled => _ | .idle => _) = _
        rw [h2]
      exact whole_of (upd_cancelled h1 h2) (.sock hw (.sock (ms := []) hs .fin))
    | idle =>
      have hs : stepSock fault s b .status = some (.mask, s, b, none) := by
        show (match s.status with | .polling flags => _ | .cancelled => _ | .idle => _) = _
        rw [h2]
      have hm : stepSock fault s b .mask = some (.tryLock s.mask, s, b, none) := rfl
      cases h3 : s.inUse with
      | true =>
        exact whole_of (upd_busy h1 h2 h3) (.sock hw (.sock hs (.sock hm (.sock (mk := some .tau) (pos' := .polling s.mask) (if_pos h3)
          (.sock (mk := none) (ms := []) rfl .fin)))))
      | false =>
        have ht : stepSock fault s b (.tryLock s.mask) = some (.info s.mask, { s with inUse := true }, b, none) := if_neg (by rw [h3]; decide)
        cases fault with
        | none =>
          exact whole_of (upd_start h1 h2 h3) (.sock hw (.sock hs (.sock hm (.sock ht (.sock (mk := none) rfl (.sock (mk := none) rfl
            (.sock (mk := some (.polled s.mask)) rfl (.sock (mk := none) (ms := []) rfl .fin))))))))
        | some e =>
          by_cases h4 : tolerated e = true
          · refine whole_of (upd_tolerated h1 h2 h3 h4) (.sock hw (.sock hs (.sock hm (.sock ht (.sock (mk := none) rfl (.sock (mk := none) rfl
              (.sock (s' := { s with inUse := true })
                (b' := { b with count := 1, events := s.mask, status := .pending }) (mk := some .tau) (pos' := .polling s.mask) ?_
              (.sock (mk := none) (ms := []) rfl .fin))))))))
            show some (if tolerated e = true then Pos.polling s.mask else _, _, _, _) = _
            rw [if_pos h4]
          · refine whole_of (upd_refused h1 h2 h3 h4) (.sock hw (.sock hs (.sock hm (.sock ht (.sock (mk := none) rfl (.sock (mk := none) rfl
              (.sock (s' := { s with inUse := true })
                (b' := { b with count := 1, events := s.mask, status := .pending }) (mk := some .tau) (pos' := .fin (.upd (.err e))) (ms := []) ?_ .fin)))))))
            show some (if tolerated e = true then _ else Pos.fin (.upd (.err e)), _, _, _) = _
            rw [if_neg h4]

theorem run_wupd {fault w b} : Whole .upd fault .winterest (.waitable w) b fun m => [m] := by
  unfold Whole
  show ∃ b', Run fault _ _ b (.upd (updateWtb fault w).1) (.waitable (updateWtb fault w).2) b' [.tau]
  unfold updateWtb
  by_cases h1 : (!w.interest.readable && !w.interest.writable) = true
  · rw [if_pos h1]
    exact ⟨b, .wtb (mk := some .tau) (pos' := .fin (.upd .ok)) (ms := []) (if_pos h1) .fin⟩
  · rw [if_neg h1]
    by_cases h2 : w.status ≠ .idle
    · rw [if_pos h2]
      exact ⟨b, .wtb (mk := none) (pos' := .wstatus) (if_neg h1) (.wtb (mk := some .tau) (pos' := .fin (.upd .ok)) (ms := []) (if_pos h2) .fin)⟩
    · rw [if_neg h2]
      refine ⟨b, .wtb (mk := none) (pos' := .wstatus) (if_neg h1) (.wtb (mk := none) (pos' := .register) (if_neg h2) ?_)⟩
      cases fault with
      | some e => exact .wtb (mk := some .tau) (ms := []) rfl .fin
      | none => exact .wtb (mk := some .tau) rfl (.wtb (mk := none) (ms := []) rfl .fin)

theorem run_del {fault s b} (hF : ∀ flags, s.status = .polling flags → fault = none ∨ b.status = .pending) :
    Whole .del fault .delRead (.socket s) b fun m => [m] := by
  cases h1 : s.waitingOnDelete with
  | true => exact whole_of (del_deleted h1) (.sock (mk := some (.ended .ok)) (pos' := .fin (.del .ok)) (ms := []) (if_pos h1) .fin)
  | false =>
    have hr : stepSock fault s b .delRead = some (.delWrite, s, b, none) := if_neg (by rw [h1]; decide)
    have hw : stepSock fault s b .delWrite = some (.delStatus, { s with waitingOnDelete := true }, b, none) := rfl
    by_cases h2 : ∃ flags, s.status = .polling flags
    · obtain ⟨flags, h2⟩ := h2
      have hs : stepSock fault { s with waitingOnDelete := true } b .delStatus = some (.pending true, { s with waitingOnDelete := true }, b, none) := by
        show (match s.status with | .polling _ => _ | _ => _) = _
        rw [h2]
      exact whole_of (del_cancel h1 h2) (.sock hr (.sock hw (.sock hs (run_cancel (del := true) (hF flags h2)))))
    · have h2 : ∀ flags, s.status ≠ .polling flags := fun flags h => h2 ⟨flags, h⟩
      have hs : stepSock fault { s with waitingOnDelete := true } b .delStatus =
          some (.fin (.del .ok), { s with waitingOnDelete := true }, b, some (.ended .ok)) := by
        show (match s.status with | .polling _ => _ | _ => _) = _
        cases h : s.status with
        | polling flags => exact absurd h (h2 flags)
        | idle => rfl
        | cancelled => rfl
      exact whole_of (del_idle h1 h2) (.sock hr (.sock hw (.sock (ms := []) hs .fin)))

theorem run_wdel {fault w b} (hreg : w.registered = true → w.status = .waiting) : Whole .del fault .wunregister (.waitable w) b fun m => [m] := by
  refine ⟨b, .wtb (mk := some (.ended .ok)) (w' := { w with registered := false }) (pos' := .wcancelled) ?_ (.wtb (mk := none) (ms := []) rfl .fin)⟩
  show some (Pos.wcancelled, unregister w, _) = _
  rw [unregister_eq hreg]

theorem run_cb {fault w b} (hreg : w.registered = true → w.status = .waiting) : Whole .cb fault .cunregister (.waitable w) b fun m => [m] := by
  refine ⟨b, .wtb (mk := some .tau) (w' := { w with registered := false }) (pos' := .cidle) ?_ (.wtb (mk := none) (ms := []) rfl .fin)⟩
  show some (Pos.cidle, unregister w, _) = _
  rw [unregister_eq hreg]

theorem run_wfeed {fault w b} : Whole .feed fault .wfeed (.waitable w) b fun m => [m] := by
  refine ⟨b, .wtb (mk := some (.deliver false w.handle w.interest)) rfl ?_⟩
  show Run fault (.wfeedMode w.interest) _ b (.fed (some w.interest)) (.waitable (if w.mode = .oneshot then _ else w)) b []
  by_cases h : w.mode = .oneshot
  · rw [if_pos h]
    refine .wtb (mk := none) (pos' := .wfeedClear w.interest) (ms := []) ?_ (.wtb (mk := none) (ms := []) rfl .fin)
    show some (if w.mode = .oneshot then Pos.wfeedClear w.interest else _, _, _) = _
    rw [if_pos h]
  · rw [if_neg h]
    refine .wtb (mk := none) (pos' := .fin (.fed (some w.interest))) (ms := []) ?_ .fin
    show some (if w.mode = .oneshot then Pos.wfeedClear w.interest else _, _, _) = _
    rw [if_neg h]

/-- The event that is worked out from the memory shared with the kernel. -/
theorem run_event {fault s b key r old out x ms} (hm : Matches b r) (h2 : isLocalClose r = false)
    (h : Run fault (.feedInterest (rawEvent key r) old) (.socket s) b out x b ms) : Run fault (.feedIosb key old) (.socket s) b out x b ms := by
  have h0 : stepSock fault s b (.feedIosb key old) = some (afterIosb key old b.status, s, b, none) := rfl
  cases r with
  | cancelled => have hm : b.status = .cancelled := hm; rw [hm] at h0; exact .sock h0 h
  | error => have hm : b.status = .error := hm; rw [hm] at h0; exact .sock h0 h
  | ok n e =>
    obtain ⟨hs, hc, he⟩ := hm
    rw [hs] at h0
    refine .sock h0 ?_
    have h0 : stepSock fault s b (.feedInfo key old) = if b.count ≥ 1 then
        if intersects b.events LOCAL_CLOSE then some (.closing, { s with op := .none }, b, some .tau)
        else some (.feedInterest (reported key b.events) old, s, b, none)
      else some (.feedInterest (Event.none key) old, s, b, none) := rfl
    rw [hc, he] at h0
    by_cases hn : n ≥ 1
    · have hl : ¬ intersects e LOCAL_CLOSE = true := by
        intro hl
        have : (decide (n ≥ 1) && intersects e LOCAL_CLOSE) = false := h2
        rw [decide_eq_true hn, hl] at this; cases this
      rw [if_pos hn, if_neg hl] at h0
      refine .sock h0 ?_
      have : rawEvent key (.ok n e) = reported key e := by unfold rawEvent; dsimp only; rw [if_pos hn]; rfl
      rw [this] at h; exact h
    · rw [if_neg hn] at h0
      refine .sock h0 ?_
      have : rawEvent key (.ok n e) = Event.none key := by unfold rawEvent; dsimp only; rw [if_neg hn]
      rw [this] at h; exact h

theorem run_feed {fault s b r} (hu : s.inUse = false) (ho : s.op = .done r) (hm : Matches b r) (hl : isLocalClose r = false) :
    Whole .feed fault .key (.socket s) b fun m => [m] := by
  have hk : stepSock fault s b .key = some (.idle s.interest.key, s, b, none) := rfl
  have hi : stepSock fault s b (.idle s.interest.key) = some (.feedWod s.interest.key s.status, { s with status := .idle }, b, none) := rfl
  cases h1 : s.waitingOnDelete with
  | true =>
    refine whole_of (b' := b) (feed_deleted ho h1) (.sock hk (.sock hi (.sock (s' := { s with status := .idle, op := .none })
      (mk := some .tau) (pos' := .fin .noEvent) (ms := []) (if_pos h1) ?_)))
    rw [← hu]; exact .fin
  | false =>
    have hw : stepSock fault { s with status := .idle } b (.feedWod s.interest.key s.status) =
        some (.feedIosb s.interest.key s.status, { s with status := .idle }, b, none) := if_neg (by show ¬ s.waitingOnDelete = true; rw [h1]; decide)
    have hev : ∀ {out x ms}, Run fault (.feedInterest (rawEvent s.interest.key r) s.status) (.socket { s with status := .idle }) b out x b ms →
        Run fault .key (.socket s) b out x b ms := fun h => .sock hk (.sock hi (.sock hw (run_event hm hl h)))
    by_cases h4 : wanted s (narrowed s (rawEvent s.interest.key r)) = true
    · refine whole_of (b' := b) (feed_some ho h1 hl rfl h4) (hev ?_)
      refine .sock (s' := { s with status := .idle, op := .none }) (mk := some (.deliver true s.socket (narrowed s (rawEvent s.interest.key r))))
        (pos' := .feedMode (narrowed s (rawEvent s.interest.key r))) (ms := []) (if_pos h4) ?_
      by_cases h5 : s.mode = .oneshot
      · rw [if_pos h5]
        refine .sock (s' := { s with status := .idle, op := .none }) (b' := b) (mk := none) (pos' := .feedClear (narrowed s (rawEvent s.interest.key r))) (ms := []) ?_ ?_
        · show some (if s.mode = .oneshot then Pos.feedClear _ else _, _, _, _) = _
          rw [if_pos h5]
        · clear hk hi hw hev
          cases s; cases hu
          exact .sock (mk := none) rfl (.sock (mk := none) (ms := []) rfl .fin)
      · rw [if_neg h5]
        refine .sock (s' := { s with status := .idle, op := .none }) (b' := b) (mk := none) (pos' := .fin (.fed (some (narrowed s (rawEvent s.interest.key r))))) (ms := []) ?_ ?_
        · show some (if s.mode = .oneshot then Pos.feedClear _ else _, _, _, _) = _
          rw [if_neg h5]
        · rw [← hu]; exact .fin
    · refine whole_of (b' := b) (feed_none ho h1 hl rfl h4) (hev ?_)
      refine .sock (s' := { s with status := .idle, op := .none }) (mk := some .tau) (pos' := .fin (.fed none)) (ms := []) (if_neg h4) ?_
      rw [← hu]; exact .fin

/- The machine. -/

theorem setPk_setPk (c : Core) (p x y) : setPk (setPk c p x) p y = setPk c p y := by
  unfold setPk
  dsimp only
  congr 1
  funext q
  split <;> rfl

theorem put_put {α : Type} (g : PId → α) (p x y) : put (put g p x) p y = put g p y := by
  funext q
  unfold put
  split <;> rfl

theorem put_id {α : Type} (g : PId → α) (p) : put g p (g p) = g := by
  funext q
  unfold put
  split
  · rename_i h; rw [h]
  · rfl

/-- The callback goes on when its section takes effect. -/
def adv (m : S) (who : Who) (ms : List Mark) : S := ms.foldl (fun m _ => advance m who) m

theorem advance_c (m : S) (who c) : advance { m with c := c } who = { advance m who with c := c } := by cases who <;> rfl
theorem advance_core (m : S) (who) : (advance m who).c = m.c := by cases who <;> rfl

theorem advance_pc (m : S) (who) : (advance m who).pc = m.pc := by cases who <;> rfl

theorem adv_c (m : S) (who c ms) : adv { m with c := c } who ms = { adv m who ms with c := c } := by
  induction ms generalizing m with
  | nil => rfl
  | cons a ms ih =>
    show adv (advance { m with c := c } who) who ms = { adv (advance m who) who ms with c := c }
    rw [advance_c, ih]

theorem obs_pc {m m' : S} (h : m'.pc = m.pc) (who p) (mark : Mark) : mark.obs m' who p = mark.obs m who p := by
  cases mark with
  | ended r => cases who with
    | thread t => show (match m'.pc t with | .del call _ => _ | _ => _) = _; rw [h]; rfl
    | waiter => rfl
    | callback q => rfl
  | _ => rfl

/-- The state after a section. -/
def ended (f : F) (p : PId) (who : Who) (out : Out) (x : Pkt) (b : Buf) (ms : List Mark) : F :=
  { f with
    m := resume { adv f.m who ms with c := setPk f.m.c p x } who out
    sec := put f.sec p none, buf := put f.buf p b, taken := if who = .waiter then none else f.taken }

theorem reach_run {n p who pos fault x0 b0 out x b ms} (hr : Run fault pos x0 b0 out x b ms) :
    ∀ {f tr}, FReach n FAny f tr → f.sec p = some (who, pos) → f.m.c.pk p = x0 → f.buf p = b0 →
    FReach n FAny (ended f p who out x b ms) ((ms.map fun mk => mk.obs f.m who p).reverse ++ tr) := by
  induction hr with
  | @fin out x b =>
    intro f tr hf hs hx hb
    refine .step (a := .unlock p) (o := none) hf trivial ?_
    show (match f.sec p with | some (who, .fin out) => _ | _ => none) = _
    rw [hs]
    dsimp only
    unfold ended
    rw [← hx, setPk_id, ← hb, put_id]
    rfl
  | @step pos x b pos' x' b' mk out x'' b'' ms h _ ih =>
    intro f tr hf hs hx hb
    have hstep : fstep n f (.access p fault) = some ({ f with
          m := if mk.isSome then advance { f.m with c := setPk f.m.c p x' } who else { f.m with c := setPk f.m.c p x' }
          sec := put f.sec p (some (who, pos')), buf := put f.buf p b' }, mk.map fun mark => mark.obs f.m who p) := by
      show (match f.sec p with | some (who, pos) => _ | none => none) = _
      rw [hs]
      dsimp only
      rw [hx, hb, h]
      rfl
    cases mk with
    | none =>
      have h1 := ih (.step hf trivial hstep) (put_self _ _ _) (setPk_self _ _ _) (put_self _ _ _)
      have e : ended { f with m := { f.m with c := setPk f.m.c p x' }, sec := put f.sec p (some (who, pos')), buf := put f.buf p b' } p who out x'' b'' ms =
          ended f p who out x'' b'' ms := by
        unfold ended
        dsimp only
        rw [adv_c, setPk_setPk, put_put, put_put]
      exact e ▸ h1
    | some mark =>
      have h1 := ih (.step hf trivial hstep) (put_self _ _ _) (by
        show (advance { f.m with c := setPk f.m.c p x' } who).c.pk p = x'
        rw [advance_core]; exact setPk_self _ _ _) (put_self _ _ _)
      have e : ended { f with m := advance { f.m with c := setPk f.m.c p x' } who, sec := put f.sec p (some (who, pos')), buf := put f.buf p b' } p who out x'' b'' ms =
          ended f p who out x'' b'' (mark :: ms) := by
        unfold ended
        dsimp only
        rw [advance_c, adv_c, setPk_setPk, put_put, put_put]
        rfl
      have e' : ∀ mk : Mark, mk.obs (advance { f.m with c := setPk f.m.c p x' } who) who p = mk.obs f.m who p :=
        fun mk => obs_pc (advance_pc _ _) _ _ _
      have h2 : FReach n FAny (ended { f with m := advance { f.m with c := setPk f.m.c p x' } who, sec := put f.sec p (some (who, pos')), buf := put f.buf p b' }
          p who out x'' b'' ms) ((ms.map fun mk => mk.obs (advance { f.m with c := setPk f.m.c p x' } who) who p).reverse ++ (mark.obs f.m who p :: tr)) := h1
      rw [e] at h2
      simp only [e'] at h2
      simp only [Option.toList_some, List.singleton_append, List.map_cons, List.reverse_cons, List.append_assoc]
      exact h2

end Polling.IocpF
