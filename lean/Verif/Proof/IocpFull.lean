import Verif.Proof.IocpPost
import Verif.Props.IocpSync

/-! A run in which the queue of updates is full when `wait` processes completions, and the OS refuses an operation. -/

namespace Polling.IocpM
open Iocp IocpSpec

/-- A `modify` that changes nothing puts an update into the queue. -/
theorem modify_queues {s : S} {k : Sock} (fd : Fd) (p : PId) (ev : Event EventExtra) (h0 : s.pc 0 = .out) (hb : buildable ev = true)
    (hkey : (ev.key == NOTIFY_KEY) = false) (ht : s.c.table true fd = some p)
    (hp : s.c.pk p = .socket k) (hi : k.interest = ev) (hm : k.mode = .level) (he : k.interestError = true) (hst : k.status = .idle)
    (hpol : s.c.polling = false) (hlen : s.c.pending.length < CAPACITY) :
    runActs 3 s (modActs 0 true fd ev .level) =
      some ({ s with c := { s.c with pending := s.c.pending ++ [p] } },
        [.ret 0 (.modify true fd ev .level) .ok, .queued p, .tau, .changed 0 true fd p ev .level, .tau, .begin 0 (.modify true fd ev .level)]) := by
  have hpc : ∀ f : Tid → Pc, f 0 = .out → upd f 0 .out = f := by
    intro f hf; funext u; unfold upd; split
    · rename_i h; subst h; exact hf.symm
    · rfl
  have hupd : ∀ (f : Tid → Pc) (x y : Pc), upd (upd f 0 x) 0 y = upd f 0 y := by
    intro f x y; funext u; unfold upd; split <;> rfl
  have hset : setEvents s.c p ev .level = (true, s.c) := by
    have hk : { k with interest := ev, mode := PollMode.level, interestError := true } = k := by
      cases k; simp only at hi hm he; simp [hi, hm, he]
    unfold setEvents
    rw [hp]
    dsimp only
    unfold setEventsSock
    dsimp only
    rw [hk, hst]
    dsimp only
    congr 1
    unfold setPk
    have : (fun y => if y = p then Pkt.socket k else s.c.pk y) = s.c.pk := by
      funext y; split
      · rename_i h; rw [h, hp]
      · rfl
    rw [this]
  have h1 : step 3 s (.call 0 (.modify true fd ev .level)) = some ({ s with pc := upd s.pc 0 (.table (.modify true fd ev .level)) }, .begin 0 (.modify true fd ev .level)) := by
    simp [step, h0, callBuildable, hb, reserved, hkey, edge, callMode]
  have go : ∀ (s : S), step 3 s (.go 0 none) = goCall s 0 none := fun s => by simp [step]
  show runActs 3 s (_ :: List.replicate 5 _) = _
  simp only [List.replicate, runActs, h1, Option.bind_some, go]
  simp only [goCall, upd_self, ht, Option.bind_some, Option.map_some, hupd, hset, ustep, hpol, Option.isSome_none, bne_self_eq_false, if_true, Bool.false_eq_true, if_false, if_pos hlen, hpc _ h0]
  simp

/-- Any number of them. -/
theorem modify_fills {s : S} {k : Sock} (fd : Fd) (p : PId) (ev : Event EventExtra) (h0 : s.pc 0 = .out) (hb : buildable ev = true)
    (hkey : (ev.key == NOTIFY_KEY) = false) (ht : s.c.table true fd = some p)
    (hp : s.c.pk p = .socket k) (hi : k.interest = ev) (hm : k.mode = .level) (he : k.interestError = true) (hst : k.status = .idle)
    (hpol : s.c.polling = false) (j : Nat) : s.c.pending.length + j ≤ CAPACITY → ∀ tr, Reach 3 Any s tr →
      ∃ tr', Reach 3 Any { s with c := { s.c with pending := s.c.pending ++ List.replicate j p } } (tr' ++ tr) ∧
        (∀ o ∈ tr', ∃ c, o = .begin 0 c ∨ o = .ret 0 c .ok ∨ o = .queued p ∨ o = .tau ∨ o = .changed 0 true fd p ev .level) := by
  induction j with
  | zero => intro _ tr h; exact ⟨[], by simpa using h, nofun⟩
  | succ j ih =>
    intro hl tr h
    obtain ⟨tr', hr, htr⟩ := ih (by omega) tr h
    have hrun := modify_queues (s := { s with c := { s.c with pending := s.c.pending ++ List.replicate j p } }) fd p ev h0 hb hkey ht hp hi hm he hst hpol
      (by simp only [List.length_append, List.length_replicate]; omega)
    have := run_reach (P := Any) hr (fun _ _ _ => trivial) hrun
    refine ⟨[.ret 0 (.modify true fd ev .level) .ok, .queued p, .tau, .changed 0 true fd p ev .level, .tau, .begin 0 (.modify true fd ev .level)] ++ tr', ?_, ?_⟩
    · rw [List.append_assoc]
      have e : s.c.pending ++ List.replicate j p ++ [p] = s.c.pending ++ List.replicate (j + 1) p := by
        rw [List.append_assoc, List.replicate_succ']
      rw [← e]
      exact this
    · intro o ho
      rcases List.mem_append.1 ho with ho | ho
      · refine ⟨.modify true fd ev .level, ?_⟩
        simp only [List.mem_cons, List.not_mem_nil, or_false] at ho
        rcases ho with rfl | rfl | rfl | rfl | rfl | rfl <;> simp
      · exact htr o ho

/-- A socket (1), a packet of the user (2) and a notification are pending at the port.  A `wait` takes all three; before it
processes them, another thread adds a socket (3) and modifies it 1023 times.  The queue is full: to put the first socket up
for an update, the waiting thread has to apply an update itself.  The OS refuses it, and the packet and the notification are
gone. -/
theorem drop_run : ∃ s tr, Reach 3 Any s tr ∧ s.phase = .idle ∧ s.c.port = [] ∧ s.notified = true ∧ (∀ t, s.pc t = .out) ∧
    posts tr = [(2, Event.onlyReadable 9)] ∧ receipts tr = [] ∧ owed tr = true ∧ s.c.pending = List.replicate 1023 3 ∧
    (∃ tr', tr = .waitErr (.os 8) :: tr' ∧ everFound tr = [⟨5, true, false, ⟨RECEIVE⟩⟩] ∧ everReturned tr = []) ∧
    s.c.pk 3 = .socket ⟨8, Event.onlyReadable 6, true, .level, false, .idle, true, .none⟩ := by
  obtain ⟨s, tr, hreach, hck⟩ := witness (addActs 0 true 7 (Event.onlyReadable 5) .level ++ [.newPacket (Event.onlyReadable 9)] ++ blockActs 1 4 ++
      [.complete 1 (.ok 1 RECEIVE), .post 2 none, .notifyCas 1, .notifyPost 1 none, .get, .wait none] ++ addActs 0 true 8 (Event.onlyReadable 6) .level)
    (fun s tr => decide (s.phase = .feed ⟨false, 4, false, 0, []⟩ [1, 2, 0]) && decide (s.c.pending = [3]) && decide (s.c.port = []) && quietB s &&
      decide (s.c.polling = false) && decide (s.notified = true) && decide (s.c.table true 8 = some 3) &&
      decide (s.c.pk 1 = .socket ⟨7, Event.onlyReadable 5, true, .level, false, .polling (RECEIVE ||| ACCEPT ||| DISCONNECT ||| RECEIVE_EXPEDITED ||| ABORT ||| CONNECT_FAIL), true,
        .done (.ok 1 RECEIVE)⟩) && decide (s.c.pk 2 = .custom (Event.onlyReadable 9)) && decide (s.c.pk 0 = .wakeup) &&
      decide (s.c.pk 3 = .socket ⟨8, Event.onlyReadable 6, true, .level, false, .idle, false, .none⟩) &&
      decide (posts tr = [(2, Event.onlyReadable 9)]) && decide (receipts tr = []) && owed tr && decide (everFound tr = []) && decide (everReturned tr = [])) (by decide +kernel)
  simp only [Bool.and_eq_true, decide_eq_true_eq] at hck
  obtain ⟨⟨⟨⟨⟨⟨⟨⟨⟨⟨⟨⟨⟨⟨⟨hph, hpe⟩, hpo⟩, hq⟩, hpol⟩, hnt⟩, htab⟩, h1⟩, h2⟩, hn⟩, h3⟩, hps⟩, hrc⟩, how⟩, hef⟩, her⟩ := hck
  have hout := quiet_pc hreach hq
  obtain ⟨tr', hr, htr⟩ := modify_fills (s := s) 8 3 (Event.onlyReadable 6) (hout 0) (by decide) (by decide) htab h3 rfl rfl rfl rfl hpol 1023
    (by rw [hpe]; decide) tr hreach
  have hfull : s.c.pending ++ List.replicate 1023 3 = List.replicate 1024 3 := by rw [hpe]; rfl
  rw [hfull] at hr
  have htr1 : posts (tr' ++ tr) = posts tr ∧ receipts (tr' ++ tr) = receipts tr ∧ owed (tr' ++ tr) = owed tr ∧ everFound (tr' ++ tr) = everFound tr ∧
      everReturned (tr' ++ tr) = everReturned tr := by
    clear hr
    induction tr' with
    | nil => exact ⟨rfl, rfl, rfl, rfl, rfl⟩
    | cons o tr' ih =>
      have := ih fun o ho => htr o (List.mem_cons_of_mem _ ho)
      obtain ⟨c, rfl | rfl | rfl | rfl | rfl⟩ := htr o List.mem_cons_self <;> exact this
  have hx : ∃ s', runActs 3 { s with c := { s.c with pending := List.replicate 1024 3 } } [.wait none, .wait none, .wait none, .wait none, .wait (some (.os 8)), .wait none, .wait none, .wait none] =
      some (s', [.waitErr (.os 8), .tau, .tau, .tau, .popped 3, .tau, .tau, .deliver true 7 1 ⟨5, true, false, ⟨RECEIVE⟩⟩]) ∧ s'.phase = .idle ∧ s'.c.port = [] ∧ s'.notified = true ∧ s'.pc = s.pc ∧
      s'.c.pending = List.replicate 1023 3 ∧ s'.c.pk 3 = .socket ⟨8, Event.onlyReadable 6, true, .level, false, .idle, true, .none⟩ := by
    have hf : ∀ c : Core, c.pk 1 = s.c.pk 1 → feed c 1 = (.update true 7 (some ⟨5, true, false, ⟨RECEIVE⟩⟩),
        setPk c 1 (.socket ⟨7, Event.onlyReadable 5, true, .level, false, .idle, false, .none⟩)) := by
      intro c hc
      unfold feed
      rw [hc, h1]
      rfl
    have hw : ∀ (s : S) f, step 3 s (.wait f) = goWait s f := fun _ _ => rfl
    simp only [runActs, hw]
    have e1 : goWait { s with c := { s.c with pending := List.replicate 1024 3 } } none =
        some ({ s with c := setPk { s.c with pending := List.replicate 1024 3 } 1 (.socket ⟨7, Event.onlyReadable 5, true, .level, false, .idle, false, .none⟩), phase := .feedUpd ⟨false, 4, false, 0, []⟩ [2, 0] (.load 1) (some ⟨5, true, false, ⟨RECEIVE⟩⟩) },
          .deliver true 7 1 ⟨5, true, false, ⟨RECEIVE⟩⟩) := by
      simp only [goWait, hph]
      rw [hf { s.c with pending := List.replicate 1024 3 } rfl]
    rw [e1]
    generalize hs2 : setPk { s.c with pending := List.replicate 1024 3 } 1 (.socket ⟨7, Event.onlyReadable 5, true, .level, false, .idle, false, .none⟩) = c2
    have c2pol : c2.polling = false := by rw [← hs2]; exact hpol
    have c2pe : c2.pending = 3 :: List.replicate 1023 3 := by rw [← hs2]; rfl
    have c2len : ¬ c2.pending.length < CAPACITY := by rw [← hs2]; show ¬ (List.replicate 1024 3).length < 1024; rw [List.length_replicate]; decide
    have c2pk3 : c2.pk 3 = s.c.pk 3 := by rw [← hs2]; rfl
    have c2pk2 : c2.pk 2 = s.c.pk 2 := by rw [← hs2]; rfl
    have c2pk0 : c2.pk 0 = s.c.pk 0 := by rw [← hs2]; rfl
    have c2po : c2.port = [] := by rw [← hs2]; exact hpo
    have hup : ∀ c3 : Core, c3.pk 3 = s.c.pk 3 → update (some (.os 8)) c3 3 =
        (.err (.os 8), setPk c3 3 (.socket ⟨8, Event.onlyReadable 6, true, .level, false, .idle, true, .none⟩), none) := by
      intro c3 hc3
      unfold update
      rw [hc3, h3]
      rfl
    have e2 : ∀ b e w, goWait { s with c := c2, phase := .feedUpd w b (.load 1) e } none =
        some ({ s with c := c2, phase := .feedUpd w b (.push 1) e }, .tau) := by
      intro b e w
      simp only [goWait, ustep, coherent, c2pol]
      rfl
    have e3 : ∀ b e w, goWait { s with c := c2, phase := .feedUpd w b (.push 1) e } none =
        some ({ s with c := c2, phase := .feedUpd w b (.pop 1 CAPACITY) e }, .tau) := by
      intro b e w
      simp only [goWait, ustep, if_neg c2len]
    have e4 : ∀ b e w, goWait { s with c := c2, phase := .feedUpd w b (.pop 1 CAPACITY) e } none =
        some ({ s with c := { c2 with pending := List.replicate 1023 3 }, phase := .feedUpd w b (.drain 1 1023 3) e }, .popped 3) := by
      intro b e w
      simp only [goWait, show CAPACITY = 1023 + 1 from rfl, ustep, c2pe]
    have e5 : ∀ e w, goWait { s with c := { c2 with pending := List.replicate 1023 3 }, phase := .feedUpd w [2, 0] (.drain 1 1023 3) e } (some (.os 8)) =
        some ({ s with c := setPk { c2 with pending := List.replicate 1023 3 } 3 (.socket ⟨8, Event.onlyReadable 6, true, .level, false, .idle, true, .none⟩), phase := .drain w (.os 8) [2, 0] }, .tau) := by
      intro e w
      have := hup { c2 with pending := List.replicate 1023 3 } c2pk3
      simp only [goWait, ustep, coherent, this, updateObs]
    have e6 : ∀ (c : Core) w p l, goWait { s with c := c, phase := .drain w (.os 8) (p :: l) } none =
        some ({ s with c := dropEntry c p, phase := .drain w (.os 8) l }, .tau) := fun _ _ _ _ => rfl
    have e7 : ∀ (c : Core) w, goWait { s with c := c, phase := .drain w (.os 8) [] } none =
        some ({ s with c := c, phase := .idle }, .waitErr (.os 8)) := by
      intro c w
      simp only [goWait, waitFail]
      rw [if_neg (by decide)]
    simp only [Option.bind_some, e2, e3, e4, e5, e6, e7, Option.map_some, List.nil_append, List.cons_append]
    refine ⟨_, rfl, rfl, ?_, hnt, rfl, ?_, ?_⟩
    · exact (dropEntries_frame _ [2, 0]).2.trans c2po
    · exact (dropEntries_rest _ [2, 0]).1
    · dsimp only
      have d2 : dropEntry (setPk { c2 with pending := List.replicate 1023 3 } 3 (.socket ⟨8, Event.onlyReadable 6, true, .level, false, .idle, true, .none⟩)) 2 =
          setPk { c2 with pending := List.replicate 1023 3 } 3 (.socket ⟨8, Event.onlyReadable 6, true, .level, false, .idle, true, .none⟩) := by
        unfold dropEntry
        rw [setPk_other _ _ (by decide), show ({ c2 with pending := List.replicate 1023 3 } : Core).pk 2 = s.c.pk 2 from c2pk2, h2]
      have d0 : dropEntry (setPk { c2 with pending := List.replicate 1023 3 } 3 (.socket ⟨8, Event.onlyReadable 6, true, .level, false, .idle, true, .none⟩)) 0 =
          setPk { c2 with pending := List.replicate 1023 3 } 3 (.socket ⟨8, Event.onlyReadable 6, true, .level, false, .idle, true, .none⟩) := by
        unfold dropEntry
        rw [setPk_other _ _ (by decide), show ({ c2 with pending := List.replicate 1023 3 } : Core).pk 0 = s.c.pk 0 from c2pk0, hn]
      rw [d2, d0, setPk_self]
  obtain ⟨s', hrun, g1, g2, g3, g4, g5, g6⟩ := hx
  have hr2 := run_reach (P := Any) hr (fun _ _ _ => trivial) hrun
  refine ⟨s', _, hr2, g1, g2, g3, fun t => by rw [g4]; exact hout t, htr1.1.trans hps, htr1.2.1.trans hrc, htr1.2.2.1.trans how, g5, ⟨_, rfl, ?_, ?_⟩, g6⟩
  · show everFound (tr' ++ tr) ++ [_] = _
    rw [htr1.2.2.2.1, hef]; rfl
  · exact htr1.2.2.2.2.trans her

end Polling.IocpM
