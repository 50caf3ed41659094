import Verif.Proof.IocpSync
import Verif.Props.IocpDelivery

/-! IOCP: the OS watches for what the user asked for (C26), registrations made during a `wait` (C28), the queue of updates (C29),
level-triggered delivery (C16). -/

namespace Polling.IocpM
open Iocp IocpSpec

/-- The conditions of the mask are those the registration asks for. -/
def Asks (q : Reg) (m : Mask) : Prop := ∀ i, i < 32 → m.getLsbD i = watches q i

theorem asks_mask {q : Reg} {k : Sock} (h1 : k.interest = interestOf q) (h2 : k.interestError = !(q.fired && decide (q.mode = .oneshot))) :
    Asks q k.mask := by
  intro i hi
  have hA : ∀ i, i < 32 → (ABORT ||| CONNECT_FAIL).getLsbD i = (i == 4 || i == 8) := by decide
  have hR : ∀ i, i < 32 → (RECEIVE ||| ACCEPT ||| DISCONNECT ||| RECEIVE_EXPEDITED).getLsbD i = (i == 0 || i == 1 || i == 3 || i == 7) := by decide
  have hS : ∀ i, i < 32 → SEND.getLsbD i = (i == 2) := by decide
  have hA := hA i hi
  have hR := hR i hi
  have hS := hS i hi
  by_cases ha : q.fired = true ∧ q.mode = .oneshot
  · have : interestOf q = Event.none q.ev.key := by simp [interestOf, ha]
    rw [this] at h1
    have hz : (Event.none q.ev.key : Event EventExtra).extra.flags = 0#32 := rfl
    simp only [Sock.mask, h1, h2, eventToAfdMask, propsToAfdMask, watches, armed, ha.1, ha.2, hz]
    simp [Event.none, Event.new]
  · have : interestOf q = q.ev := by simp [interestOf, ha]
    rw [this] at h1
    have harm : armed q = true := by
      unfold armed
      cases hf : q.fired <;> simp
      intro hm; exact ha ⟨hf, hm⟩
    have he : k.interestError = true := by
      rw [h2]
      cases hf : q.fired <;> simp
      intro hm; exact ha ⟨hf, hm⟩
    simp only [Sock.mask, h1, he, eventToAfdMask, propsToAfdMask, watches, harm, Bool.true_or, if_true, Bool.true_and]
    cases hr : q.ev.readable <;> cases hw : q.ev.writable <;>
      simp only [BitVec.getLsbD_or, hA, hR, hS, if_true, Bool.false_eq_true, if_false, BitVec.getLsbD_zero] <;>
      cases q.ev.extra.flags.getLsbD i <;> simp [Bool.or_comm, Bool.or_left_comm, Bool.or_assoc]

/-- What the OS does for the registration `p` of a socket is what it asks for: one AFD operation is in flight, for the
conditions asked for; or a cancelled one is in flight; or one is complete, and its completion still has to be processed by a
`wait`. -/
def InSync (s : S) (tr : List IObs) (p : PId) : Prop :=
  ∃ q k, reg tr p = some q ∧ s.c.pk p = .socket k ∧
    ((∃ m, k.op = .inFlight m false ∧ Asks q m) ∨ (∃ m, k.op = .inFlight m true) ∨
     (∃ r, k.op = .done r) ∧ p ∈ s.phase.batch ++ s.c.port)

theorem in_sync {n P s tr} (hP : ∀ s a, P s a → Accepts s a) (h : Reach n P s tr) {fd p} (hreg : registered tr true fd = some p)
    (hq : ¬ Holder s p) : InSync s tr p := by
  have hti := reach_ti h
  rw [hti.tab] at hreg
  have hid := hti.ids _ _ _ hreg
  have hgone := (reach_gone h).2 p
  have hcov := reach_cov hP h p
  have hfit := reach_fits hP h p
  have hrg := hti.regs p
  cases hp : s.c.pk p with
  | socket k =>
    rw [hp] at hgone hcov hfit hrg
    have hd : k.waitingOnDelete = false := by
      cases hw : k.waitingOnDelete with
      | false => rfl
      | true => exact absurd hreg (hgone hw _ _)
    obtain ⟨q, hq1, _, _, _, _, _, hi, he⟩ := hrg
    have hun : ¬ Uns (.socket k) := by
      intro hu
      rcases hcov hu with h | ⟨h, _⟩
      · exact hq h
      · rw [hp] at h; cases h
    have hdone : ∀ r, k.op = .done r → p ∈ s.phase.batch ++ s.c.port := by
      intro r hr
      have := reach_ops h hp
      rw [hr] at this
      exact List.count_pos_iff.1 (by rw [this]; exact Nat.one_pos)
    refine ⟨q, k, hq1, hp, ?_⟩
    simp only [Fits] at hfit
    split at hfit
    · rename_i hst; exact absurd ⟨hd, .inl hst⟩ hun
    · rename_i f hst
      have hf : f = k.mask := by
        by_cases hf : f = k.mask
        · exact hf
        · exact absurd ⟨hd, .inr ⟨f, hst, hf⟩⟩ hun
      subst hf
      rcases hfit with hfit | ⟨r, hfit⟩
      · exact .inl ⟨_, hfit, asks_mask hi he⟩
      · exact .inr (.inr ⟨⟨r, hfit⟩, hdone r hfit⟩)
    · rcases hfit with ⟨f, hfit⟩ | ⟨r, hfit⟩
      · exact .inr (.inl ⟨f, hfit⟩)
      · exact .inr (.inr ⟨⟨r, hfit⟩, hdone r hfit⟩)
  | waitable w => rw [hp] at hid; cases hid
  | free => rw [hp] at hid; cases hid
  | custom e => rw [hp] at hid; cases hid
  | wakeup => rw [hp] at hid; cases hid

/-- A run from a fresh poller with what can be checked of its end. -/
theorem witness (acts : List Act) (chk : S → List IObs → Bool) (h : (runActs 3 init acts).map (fun r => chk r.1 r.2) = some true) :
    ∃ s tr, Reach 3 Any s tr ∧ chk s tr = true := by
  rw [Option.map_eq_some_iff] at h
  obtain ⟨⟨s, tr⟩, h, he⟩ := h
  have hreach := run_reach (P := Any) .init (fun _ _ _ => trivial) h
  rw [List.append_nil] at hreach
  exact ⟨s, tr, hreach, he⟩

/-- A step in which the OS refuses nothing and no load is stale. -/
def plainB : Act → Bool
  | .go _ fault | .wait fault | .callbackPost _ fault => fault.isNone
  | _ => true

theorem plain_accepts {s : S} {a : Act} (h : plainB a = true) : Accepts s a := by
  cases a with
  | go t fault => cases fault with
    | none => trivial
    | some e => cases h
  | wait fault => cases fault with
    | none => trivial
    | some e => cases h
  | callbackPost p fault => cases fault with
    | none => trivial
    | some e => cases h
  | _ => trivial

/-- No thread is inside a call, apart from `wait`. -/
def quietB (s : S) : Bool := decide (s.pc 0 = .out) && decide (s.pc 1 = .out) && decide (s.pc 2 = .out)

theorem quiet_pc {s tr} (h : Reach 3 Any s tr) (hq : quietB s = true) (t : Tid) : s.pc t = .out := by
  simp only [quietB, Bool.and_eq_true, decide_eq_true_eq] at hq
  match t with
  | 0 => exact hq.1.1
  | 1 => exact hq.1.2
  | 2 => exact hq.2
  | t + 3 => exact reach_threads h _ (by omega)

end Polling.IocpM

namespace Polling.C26
open IocpM Iocp IocpSpec

/-- In every reachable state in which the OS never refused an AFD operation or cancellation, for every number of threads and
every interleaving of their calls with `wait` and with the completions: a registered socket for which no update is pending
(it is neither in the queue of updates nor is a thread about to update it) has one AFD operation in flight for exactly the
conditions its interest asks for, or a cancelled one in flight, or a completed one that a `wait` will process.
Missing for the full property: an operation refused by the OS, see `iocp_refused_is_forgotten`. -/
theorem iocp_in_sync_partial (n : Nat) (s : S) (tr : List IObs) (h : Reach n Accepts s tr) (fd : Fd) (p : PId)
    (hreg : registered tr true fd = some p) (hq : ¬ Holder s p) : InSync s tr p :=
  in_sync (fun _ _ h => h) h hreg hq

/-- A completion (also that of a cancelled operation) processed by `wait` makes the socket be polled again: the next thing the
waiting thread does is to update it. -/
theorem iocp_completion_repolls (n : Nat) (P) (s : S) (tr : List IObs) (h : Reach n P s tr) (fd : Fd) (p : PId)
    (hreg : registered tr true fd = some p) (w : W) (batch : List PId) (hph : s.phase = .feed w (p :: batch)) :
    ∃ s' o ev, step n s (.wait none) = some (s', o) ∧ s'.phase = .feedUpd w batch (.load p) ev ∧ Holder s' p := by
  have hti := reach_ti h
  rw [hti.tab] at hreg
  have hid := hti.ids _ _ _ hreg
  have hgone := (reach_gone h).2 p
  have hns := feed_not_stuck h (p := p)
  rcases feed_cases s.c p with ⟨k, r, e1, e2, e3, e4⟩ | ⟨k, r, e1, e2, e3, e4, e5⟩ | ⟨k, r, e1, e2, e3, e4, e5⟩ | ⟨w, e1, e5⟩ | ⟨e, e1, e2⟩ |
      ⟨e1, e2⟩ | ⟨e1, e2⟩
  · rw [e1] at hgone; exact absurd hreg (hgone e3 _ _)
  · rw [e5] at hns; exact absurd rfl hns
  · simp only [step, goWait, hph, e5]
    exact ⟨_, _, _, rfl, rfl, .inr (.inr rfl)⟩
  · rw [e1] at hid; cases hid
  · rw [e1] at hid; cases hid
  · rw [e1] at hid; cases hid
  · cases hp : s.c.pk p with
    | socket k =>
      have := reach_ops h hp
      rw [hph] at this
      have hk : ∃ r, k.op = .done r := by
        cases hk : k.op with
        | done r => exact ⟨r, rfl⟩
        | none => rw [hk] at this; simp [Phase.batch] at this
        | inFlight m b => rw [hk] at this; simp [Phase.batch] at this
      obtain ⟨r, hk⟩ := hk
      rcases e1 with ⟨k', e1, e1'⟩ | e1
      · rw [hp] at e1; cases e1; exact absurd hk (e1' r)
      · rw [hp] at e1; cases e1
    | _ => rw [hp] at hid; cases hid

/-- No socket ever has two operations in flight, whatever fails: whenever one is started, the socket had none (not even a
completed one that was not yet processed), and afterwards it has that one, for the conditions its interest asks for. -/
theorem iocp_one_poll (n : Nat) (P) (s s' : S) (tr : List IObs) (h : Reach n P s tr) (a : Act) (p : PId) (m : Mask)
    (hs : step n s a = some (s', .polled p m)) :
    ∃ q k k', reg tr p = some q ∧ q.sock = true ∧ q.ended = false ∧ s.c.pk p = .socket k ∧ k.op = .none ∧
      p ∉ s.phase.batch ++ s.c.port ∧ s'.c.pk p = .socket k' ∧ k'.op = .inFlight m false ∧ Asks q m := by
  obtain ⟨fault, h1, h2⟩ := step_polled hs
  obtain ⟨k, e1, e2, e3, e4, rfl, e6⟩ := update_polled h1
  have hok := reach_opOk h p
  have hrg := (reach_ti h).regs p
  have hc := reach_ops h e1
  rw [e1] at hok hrg
  obtain ⟨q, hq1, hq2, _, _, _, hq3, hi, he⟩ := hrg
  have hop : k.op = .none := hok.2 e3
  rw [hop] at hc
  refine ⟨q, k, _, hq1, hq2, ?_, e1, hop, List.count_eq_zero.1 hc, by rw [h2]; exact e6, rfl, asks_mask hi he⟩
  cases hh : q.ended with
  | false => rfl
  | true => rw [hq3 hh] at e4; cases e4

/-- A blocked waiter, the interest changed (the operation is cancelled), the cancellation complete, and the socket polled again
for the new interest. -/
example : exTrace (addActs 0 true 7 (Event.onlyReadable 5) .oneshot ++ blockActs 1 4 ++
      [.call 1 (.modify true 7 (Event.onlyWritable 5) .oneshot), .go 1 none, .go 1 none, .go 1 none, .go 1 none, .go 1 none,
       .complete 1 .cancelled, .get] ++ List.replicate 4 (.wait none) ++ [.decide false] ++ List.replicate 4 (.wait none)) =
    some [.polled 1 (ABORT ||| CONNECT_FAIL ||| SEND), .popped 1, .queued 1,
      .ret 1 (.modify true 7 (Event.onlyWritable 5) .oneshot) .ok, .changed 1 true 7 1 (Event.onlyWritable 5) .oneshot,
      .begin 1 (.modify true 7 (Event.onlyWritable 5) .oneshot),
      .polled 1 (RECEIVE ||| ACCEPT ||| DISCONNECT ||| RECEIVE_EXPEDITED ||| ABORT ||| CONNECT_FAIL), .popped 1, .waitBegin,
      .ret 0 (.add true 7 (Event.onlyReadable 5) .oneshot) .ok, .queued 1,
      .inserted 0 true 7 1 (Event.onlyReadable 5) .oneshot, .begin 0 (.add true 7 (Event.onlyReadable 5) .oneshot)] := by
  decide +kernel

/-- The exception: the OS refuses the operation of a registered socket; the `wait` that tried fails, and the caller of `add`
was told `Ok`.  From then on every `wait` blocks although the socket is registered and nothing is pending: no operation is in
flight, and not even a `modify` starts one. -/
theorem iocp_refused_is_forgotten : ∃ s tr, Reach 3 Any s tr ∧ registered tr true 7 = some 1 ∧ ¬ Holder s 1 ∧ ¬ InSync s tr 1 ∧
    s.phase = .port ⟨false, 4, false, 0, []⟩ ∧ s.c.pending = [] ∧ step 3 s .get = none ∧
    tr.filter (· ≠ .tau) = [.popped 1, .waitBegin, .ret 0 (.modify true 7 (Event.all 5) .level) .ok, .queued 1,
      .changed 0 true 7 1 (Event.all 5) .level, .begin 0 (.modify true 7 (Event.all 5) .level), .waitErr (.os 8), .popped 1,
      .waitBegin, .ret 0 (.add true 7 (Event.onlyReadable 5) .level) .ok, .queued 1,
      .inserted 0 true 7 1 (Event.onlyReadable 5) .level, .begin 0 (.add true 7 (Event.onlyReadable 5) .level)] := by
  obtain ⟨s, tr, hreach, hck⟩ := witness (addActs 0 true 7 (Event.onlyReadable 5) .level ++
      [.waitBegin false 4, .wait none, .wait none, .wait none, .wait (some (.os 8)), .wait none] ++
      modActs 0 true 7 (Event.all 5) .level ++ blockActs 1 4)
    (fun s tr => decide (registered tr true 7 = some 1) && decide (tr.filter (· ≠ .tau) = [.popped 1, .waitBegin, .ret 0 (.modify true 7 (Event.all 5) .level) .ok, .queued 1,
      .changed 0 true 7 1 (Event.all 5) .level, .begin 0 (.modify true 7 (Event.all 5) .level), .waitErr (.os 8), .popped 1,
      .waitBegin, .ret 0 (.add true 7 (Event.onlyReadable 5) .level) .ok, .queued 1,
      .inserted 0 true 7 1 (Event.onlyReadable 5) .level, .begin 0 (.add true 7 (Event.onlyReadable 5) .level)]) &&
      decide (s.c.pk 1 = .socket ⟨7, Event.all 5, true, .level, false, .polling (RECEIVE ||| ACCEPT ||| DISCONNECT ||| RECEIVE_EXPEDITED ||| ABORT ||| CONNECT_FAIL ||| SEND), true, .none⟩) &&
      decide (s.phase = .port ⟨false, 4, false, 0, []⟩) && decide (s.c.pending = []) && decide (s.c.port = []) && quietB s) (by decide +kernel)
  simp only [Bool.and_eq_true, decide_eq_true_eq] at hck
  obtain ⟨⟨⟨⟨⟨⟨h1, h2⟩, hpk⟩, hph⟩, hpe⟩, hpo⟩, hq⟩ := hck
  refine ⟨s, tr, hreach, h1, ?_, ?_, hph, hpe, ?_, h2⟩
  · rintro (h | ⟨t, h⟩ | h)
    · rw [hpe] at h; cases h
    · rw [quiet_pc hreach hq t] at h; exact h
    · rw [hph] at h; exact h
  · rintro ⟨q, k, _, hk, h⟩
    rw [hpk] at hk; cases hk
    rcases h with ⟨m, h, _⟩ | ⟨m, h⟩ | ⟨⟨r, h⟩, _⟩ <;> cases h
  · simp only [step, hph, hpo]; simp

end Polling.C26

namespace Polling.C28
open IocpM Iocp IocpSpec

/-- A call that looks at the flag while a thread is blocked in `wait` and sees its current value takes effect by itself: from every reachable state in
which the OS never refused anything, with a thread waiting at the port and a call about to update the registration, the next
two steps of the call finish the update - without the waiting thread - and the call returns `Ok`. -/
theorem iocp_call_while_blocked (n : Nat) (s : S) (tr : List IObs) (h : Reach n Accepts s tr) (w : W) (hph : s.phase = .port w)
    (t : Tid) (ht : t < n) (call : Call) (p : PId) (hpc : s.pc t = .upd call (.load p)) :
    ∃ s' o, runActs n s [.go t none, .go t none] = some (s', o) ∧ s'.phase = .port w ∧ s'.pc t = .ret call .ok ∧
      ∀ fd, registered tr true fd = some p → (∀ u, u ≠ t → ¬ (s.pc u).holds p) → p ∉ s.c.pending →
        registered (o ++ tr) true fd = some p ∧ InSync s' (o ++ tr) p := by
  have hpol := reach_polling h
  rw [hph] at hpol
  have hid := reach_holder h p (.inr (.inl ⟨t, by rw [hpc]; rfl⟩))
  have hrun : ∃ s' m, runActs n s [.go t none, .go t none] = some (s', [updateObs p m, .tau]) ∧ s'.phase = .port w ∧
      s'.pc t = .ret call .ok ∧ (∀ u, u ≠ t → s'.pc u = s.pc u) ∧ s'.c.pending = s.c.pending := by
    have ht' : ¬ t ≥ n := by omega
    have h1 : step n s (.go t none) = some ({ s with pc := upd s.pc t (.upd call (.run p)) }, .tau) := by
      simp only [step, if_neg ht', goCall, hpc, ustep, hpol, Phase.polls]
      rfl
    simp only [runActs, h1, Option.bind_some]
    simp only [step, if_neg ht', goCall, upd_self, ustep]
    refine ⟨_, _, rfl, hph, ?_, ?_, ?_⟩
    · dsimp only; rw [upd_self, update_ok hid]
    · intro u hu; dsimp only; rw [upd_other _ _ hu, upd_other _ _ hu]
    · exact (update_frame _ _ _).2.2.1
  obtain ⟨s', m, hrun, h1, h2, h3, h4⟩ := hrun
  refine ⟨s', _, hrun, h1, h2, ?_⟩
  intro fd hreg hoth hpen
  have hreach := run_reach (P := Accepts) h (by intro s a ha; simp only [List.mem_cons, List.not_mem_nil, or_false] at ha; rcases ha with rfl | rfl <;> trivial) hrun
  have hr' : registered ([updateObs p m, .tau] ++ tr) true fd = some p := by
    unfold updateObs; split <;> exact hreg
  refine ⟨hr', in_sync (fun _ _ h => h) hreach hr' ?_⟩
  rintro (h | ⟨u, h⟩ | h)
  · rw [h4] at h; exact hpen h
  · by_cases e : u = t
    · subst e; rw [h2] at h; exact h
    · rw [h3 u e] at h; exact hoth u e h
  · rw [h1] at h; exact h

/-- In every reachable state in which no thread lost the race between looking at the flag and the queue (`NoRace`; any
number of threads, any failures, values of the flag however old): while a thread waits at the port, no update is left in the queue - whatever was
registered has been applied, or the call that registers it is still in progress.
Missing for the full property: the race, see `iocp_update_stranded`, `iocp_stale_load_strands`. -/
theorem iocp_nothing_queued_partial (n : Nat) (s : S) (tr : List IObs) (h : Reach n NoRace s tr) (w : W) (hph : s.phase = .port w) :
    s.c.pending = [] := reach_norace (fun _ _ h => h) h w hph

/-- The same for the sockets themselves, if the OS refused nothing either: while a thread waits at the port, every registered
socket with no call in progress for it is watched for what it asks for (or a completion is on its way). -/
theorem iocp_takes_effect_partial (n : Nat) (s : S) (tr : List IObs) (h : Reach n (fun s a => Accepts s a ∧ NoRace s a) s tr) (w : W)
    (hph : s.phase = .port w) (fd : Fd) (p : PId) (hreg : registered tr true fd = some p) (hq : ∀ t, ¬ (s.pc t).holds p) : InSync s tr p := by
  refine in_sync (fun _ _ h => h.1) h hreg ?_
  rintro (h' | ⟨u, h'⟩ | h')
  · rw [reach_norace (fun _ _ h => h.2) h w hph] at h'; cases h'
  · exact hq u h'
  · rw [hph] at h'; exact h'

/-- A socket is added while a thread is blocked in `wait`, and its event wakes that thread. -/
example : exTrace (blockActs 0 4 ++ [.call 0 (.add true 7 (Event.onlyWritable 5) .level)] ++ List.replicate 5 (.go 0 none) ++
      [.complete 1 (.ok 1 SEND)] ++ takeActs) =
    some [.waitOk 1 [⟨5, false, true, ⟨SEND⟩⟩], .queued 1, .deliver true 7 1 ⟨5, false, true, ⟨SEND⟩⟩,
      .ret 0 (.add true 7 (Event.onlyWritable 5) .level) .ok, .polled 1 (SEND ||| ABORT ||| CONNECT_FAIL),
      .inserted 0 true 7 1 (Event.onlyWritable 5) .level, .begin 0 (.add true 7 (Event.onlyWritable 5) .level), .waitBegin] := by
  decide +kernel

/-- Where the property fails: a thread adds a socket, looks at the flag, and before it gets to the queue another thread begins
to wait, finds the queue empty and blocks.  The `add` then puts its update into the queue and returns `Ok`.  No call is in
progress, the OS refused nothing, the socket is not watched for, and the waiting thread stays blocked: no completion can come
from this socket. -/
theorem iocp_update_stranded : ∃ s tr, Reach 3 Any s tr ∧ s.phase = .port ⟨false, 4, false, 0, []⟩ ∧ s.c.pending = [1] ∧
    registered tr true 7 = some 1 ∧ (∀ t, s.pc t = .out) ∧ ¬ InSync s tr 1 ∧ step 3 s .get = none ∧ (∀ r, step 3 s (.complete 1 r) = none) ∧
    tr.filter (· ≠ .tau) = [.ret 0 (.add true 7 (Event.onlyReadable 5) .level) .ok, .queued 1, .waitBegin,
      .inserted 0 true 7 1 (Event.onlyReadable 5) .level, .begin 0 (.add true 7 (Event.onlyReadable 5) .level)] := by
  obtain ⟨s, tr, hreach, hck⟩ := witness ([.call 0 (.add true 7 (Event.onlyReadable 5) .level), .go 0 none, .go 0 none, .go 0 none] ++
      blockActs 0 4 ++ [.go 0 none, .go 0 none])
    (fun s tr => decide (registered tr true 7 = some 1) && decide (tr.filter (· ≠ .tau) = [.ret 0 (.add true 7 (Event.onlyReadable 5) .level) .ok, .queued 1, .waitBegin,
      .inserted 0 true 7 1 (Event.onlyReadable 5) .level, .begin 0 (.add true 7 (Event.onlyReadable 5) .level)]) &&
      decide (s.c.pk 1 = .socket ⟨7, Event.onlyReadable 5, true, .level, false, .idle, false, .none⟩) &&
      decide (s.phase = .port ⟨false, 4, false, 0, []⟩) && decide (s.c.pending = [1]) && decide (s.c.port = []) && quietB s) (by decide +kernel)
  simp only [Bool.and_eq_true, decide_eq_true_eq] at hck
  obtain ⟨⟨⟨⟨⟨⟨h1, h2⟩, hpk⟩, hph⟩, hpe⟩, hpo⟩, hq⟩ := hck
  refine ⟨s, tr, hreach, hph, hpe, h1, quiet_pc hreach hq, ?_, ?_, ?_, h2⟩
  · rintro ⟨q, k, _, hk, h⟩
    rw [hpk] at hk; cases hk
    rcases h with ⟨m, h, _⟩ | ⟨m, h⟩ | ⟨⟨r, h⟩, _⟩ <;> cases h
  · simp only [step, hph, hpo]; simp
  · intro r; simp only [step, hpk]

/-- The flag is loaded with `Acquire` only (iocp/mod.rs:509), so the load may return an older value.  Then the same happens to a call that
begins when the other thread is blocked in `wait` already: nothing of the call overlaps with the beginning of the `wait`.  The
OS refused nothing. -/
theorem iocp_stale_load_strands : ∃ s0 tr0 s tr w, Reach 3 Accepts s0 tr0 ∧ s0.phase = .port w ∧ (∀ t, s0.pc t = .out) ∧ tr0 = [.tau, .tau, .tau, .waitBegin] ∧
    Reach 3 Accepts s (tr ++ tr0) ∧ s.phase = .port w ∧ s.c.pending = [1] ∧
    registered (tr ++ tr0) true 7 = some 1 ∧ (∀ t, s.pc t = .out) ∧ ¬ InSync s (tr ++ tr0) 1 ∧ step 3 s .get = none ∧ (∀ r, step 3 s (.complete 1 r) = none) ∧
    tr.filter (· ≠ .tau) = [.ret 0 (.add true 7 (Event.onlyReadable 5) .level) .ok, .queued 1,
      .inserted 0 true 7 1 (Event.onlyReadable 5) .level, .begin 0 (.add true 7 (Event.onlyReadable 5) .level)] := by
  have hex : ∃ s0 tr0 s1 tr1 s2 o s3 tr3, runActs 3 init (blockActs 0 4) = some (s0, tr0) ∧
      runActs 3 s0 [.call 0 (.add true 7 (Event.onlyReadable 5) .level), .go 0 none, .go 0 none] = some (s1, tr1) ∧
      step 3 s1 (.go 0 (some .interrupted)) = some (s2, o) ∧ runActs 3 s2 [.go 0 none, .go 0 none] = some (s3, tr3) ∧
      (s0.phase = .port ⟨false, 4, false, 0, []⟩ ∧ quietB s0 = true ∧ tr0 = [.tau, .tau, .tau, .waitBegin] ∧
        s1.pc 0 = .upd (.add true 7 (Event.onlyReadable 5) .level) (.load 1) ∧
        s3.phase = .port ⟨false, 4, false, 0, []⟩ ∧ s3.c.pending = [1] ∧ s3.c.port = [] ∧ quietB s3 = true ∧
        s3.c.pk 1 = .socket ⟨7, Event.onlyReadable 5, true, .level, false, .idle, false, .none⟩ ∧
        registered ((tr3 ++ o :: tr1) ++ tr0) true 7 = some 1 ∧
        (tr3 ++ o :: tr1).filter (· ≠ .tau) = [.ret 0 (.add true 7 (Event.onlyReadable 5) .level) .ok, .queued 1,
          .inserted 0 true 7 1 (Event.onlyReadable 5) .level, .begin 0 (.add true 7 (Event.onlyReadable 5) .level)]) := by
    refine ⟨_, _, _, _, _, _, _, _, rfl, rfl, rfl, rfl, ?_⟩
    decide +kernel
  obtain ⟨s0, tr0, s1, tr1, s2, o, s3, tr3, r0, r1, r2, r3, h1, h2, h3, h4, h5, h6, h7, h8, h9, h10, h11⟩ := hex
  have e0 : Reach 3 Accepts s0 tr0 := by
    have := run_reach (P := Accepts) .init (fun _ a ha => plain_accepts (by revert a; decide)) r0
    rwa [List.append_nil] at this
  have e1 := run_reach (P := Accepts) e0 (fun _ a ha => plain_accepts (by revert a; decide)) r1
  have e2 := e1.step (a := .go 0 (some .interrupted)) (Or.inr ⟨_, _, h4⟩) r2
  have e3 := run_reach (P := Accepts) e2 (fun _ a ha => plain_accepts (by revert a; decide)) r3
  have e3' : Reach 3 Accepts s3 ((tr3 ++ o :: tr1) ++ tr0) := by simpa using e3
  refine ⟨s0, tr0, s3, tr3 ++ o :: tr1, _, e0, h1, quiet_pc (reach_any e0) h2, h3, e3', h5, h6, h10, quiet_pc (reach_any e3') h8, ?_, ?_, ?_, h11⟩
  · rintro ⟨q, k, _, hk, h⟩
    rw [h9] at hk; cases hk
    rcases h with ⟨m, h, _⟩ | ⟨m, h⟩ | ⟨⟨r, h⟩, _⟩ <;> cases h
  · simp only [step, h5, h7]; simp
  · intro r; simp only [step, h9]

end Polling.C28

namespace Polling.C29
open IocpM Iocp IocpSpec

/-- The queue of updates is first in, first out, loses and duplicates nothing, and never holds more than its capacity: at
every moment the updates put in are those taken out followed by those still inside - for every number of threads, whatever
the OS refuses, and also when more than 1024 updates are pending. -/
theorem iocp_queue_in_order (n : Nat) (P) (s : S) (tr : List IObs) (h : Reach n P s tr) :
    queuings tr = poppings tr ++ s.c.pending ∧ s.c.pending.length ≤ 1024 := reach_queue h

/-- A `wait` begins to wait at the port only after it has taken out every update that was put in. -/
theorem iocp_wait_drains (n : Nat) (P) (s s' : S) (tr : List IObs) (o : IObs) (h : Reach n P s tr) (a : Act) (hs : step n s a = some (s', o))
    (h0 : ∀ w, s.phase ≠ .port w) (w : W) (hph : s'.phase = .port w) : queuings (o :: tr) = poppings (o :: tr) ∧ s'.c.pending = [] := by
  have hq := reach_queue h
  have key : s'.c.pending = [] ∧ o = .tau ∧ s.c.pending = [] := by
    cases a with
    | go t fault =>
      simp only [step, goCall] at hs
      repeat' split at hs
      all_goals cases hs
      all_goals exact absurd hph (h0 w)
    | wait fault =>
      simp only [step, goWait] at hs
      split at hs
      · cases hs; cases hph
      · cases hs; cases hph
      · split at hs
        · cases hs; cases hph
        · rename_i h0; cases hs; exact ⟨h0, rfl, h0⟩
      · split at hs <;> (cases hs; cases hph)
      · cases hs; cases hph
      · unfold waitFail at hs; split at hs <;> (cases hs; cases hph)
      · unfold waitFail at hs; split at hs <;> (cases hs; cases hph)
      · cases hs; cases hph
      · split at hs <;> (cases hs; cases hph)
      · split at hs
        · cases hs; cases hph
        · cases hs; cases hph
        · cases hs; cases hph
      · cases hs; cases hph
      · cases hs
    | _ =>
      simp only [step] at hs
      repeat' split at hs
      all_goals cases hs
      all_goals first | exact absurd hph (h0 w) | cases hph
  obtain ⟨h1, rfl, h2⟩ := key
  refine ⟨?_, h1⟩
  have := hq.1
  rw [h2, List.append_nil] at this
  exact this

/-- What the thread that took an update out of the queue does next is to apply it. -/
theorem iocp_popped_is_next (n : Nat) (s s' : S) (a : Act) (p : PId) (hs : step n s a = some (s', .popped p)) :
    (∃ t call q m, s'.pc t = .upd call (.drain q m p)) ∨ (∃ w, s'.phase = .upd w p) ∨ (∃ w b q m ev, s'.phase = .feedUpd w b (.drain q m p) ev) := by
  have hu : ∀ {fault c u c' out}, ustep fault c u = (c', out, .popped p) → ∃ q m, out = .more (.drain q m p) := by
    intro fault c u c' out hu
    cases u with
    | load q => simp only [ustep] at hu; cases hu
    | run q =>
      simp only [ustep] at hu
      injection hu with h1 h2; injection h2 with h2 h3
      unfold updateObs at h3; split at h3 <;> cases h3
    | push q => simp only [ustep] at hu; split at hu <;> cases hu
    | pop q m => simp only [ustep] at hu; split at hu <;> cases hu; exact ⟨_, _, rfl⟩
    | drain q m r =>
      simp only [ustep] at hu
      injection hu with h1 h2; injection h2 with h2 h3
      unfold updateObs at h3; split at h3 <;> cases h3
  cases a with
  | go t fault =>
    simp only [step] at hs
    split at hs
    · cases hs
    unfold goCall at hs
    split at hs
    case _ => split at hs <;> cases hs
    case _ => repeat' split at hs
              all_goals cases hs
    case _ => split at hs <;> cases hs
    case _ => cases hs
    case _ call u hpc =>
      split at hs
      · rename_i he
        injection hs with hs; injection hs with h1 h2; subst h2
        obtain ⟨q, m, h⟩ := hu he
        cases h
        subst h1
        exact .inl ⟨t, call, q, m, by dsimp only; rw [upd_self]⟩
      · rename_i he
        injection hs with hs; injection hs with h1 h2; subst h2
        obtain ⟨q, m, h⟩ := hu he
        cases h
    case _ => cases hs
    case _ => cases hs
  | wait fault =>
    simp only [step, goWait] at hs
    split at hs
    · cases hs
    · cases hs
    · split at hs <;> cases hs; exact .inr (.inl ⟨_, rfl⟩)
    · split at hs
      · injection hs with hs; injection hs with h1 h2; unfold updateObs at h2; split at h2 <;> cases h2
      · injection hs with hs; injection hs with h1 h2; unfold updateObs at h2; split at h2 <;> cases h2
    · cases hs
    · unfold waitFail at hs; split at hs <;> cases hs
    · unfold waitFail at hs; split at hs <;> cases hs
    · cases hs
    · split at hs
      · cases hs
      · cases hs
      · cases hs
      · cases hs
      · rename_i ev _ _; cases ev <;> cases hs
    · split at hs
      · rename_i he
        injection hs with hs; injection hs with h1 h2; subst h2
        obtain ⟨q, m, h⟩ := hu he
        cases h
        subst h1
        exact .inr (.inr ⟨_, _, q, m, _, rfl⟩)
      · rename_i he
        injection hs with hs; injection hs with h1 h2; subst h2
        obtain ⟨q, m, h⟩ := hu he
        cases h
      · rename_i he
        injection hs with hs; injection hs with h1 h2; subst h2
        obtain ⟨q, m, h⟩ := hu he
        cases h
    · cases hs
    · cases hs
  | _ =>
    simp only [step] at hs
    repeat' split at hs
    all_goals cases hs

/-- When a `wait` begins to wait at the port, the changes of all calls that are over have been applied: every registered socket
with no call in progress for it is watched for what it asks for, or a completion is on its way - if the OS refused nothing
(otherwise see `iocp_update_lost`). -/
theorem iocp_no_update_lost_partial (n : Nat) (s s' : S) (tr : List IObs) (o : IObs) (h : Reach n Accepts s tr) (a : Act) (ha : Accepts s a)
    (hs : step n s a = some (s', o)) (h0 : ∀ w, s.phase ≠ .port w) (w : W) (hph : s'.phase = .port w)
    (fd : Fd) (p : PId) (hreg : registered (o :: tr) true fd = some p) (hq : ∀ t, ¬ (s'.pc t).holds p) : InSync s' (o :: tr) p := by
  refine in_sync (fun _ _ h => h) (h.step ha hs) hreg ?_
  rintro (h' | ⟨u, h'⟩ | h')
  · rw [(iocp_wait_drains n Accepts s s' tr o h a hs h0 w hph).2] at h'; cases h'
  · exact hq u h'
  · rw [hph] at h'; exact h'

/-- Three registrations and two changes made before the first `wait` are applied by it in this order. -/
example : exTrace (addActs 0 true 7 (Event.onlyReadable 1) .level ++ addActs 1 true 8 (Event.onlyReadable 2) .level ++
      addActs 0 true 9 (Event.onlyReadable 3) .level ++ modActs 1 true 7 (Event.onlyWritable 1) .level ++ blockActs 4 4) =
    (exTrace (addActs 0 true 7 (Event.onlyReadable 1) .level ++ addActs 1 true 8 (Event.onlyReadable 2) .level ++
      addActs 0 true 9 (Event.onlyReadable 3) .level ++ modActs 1 true 7 (Event.onlyWritable 1) .level)).map fun tr =>
     [.popped 1, .polled 3 (RECEIVE ||| ACCEPT ||| DISCONNECT ||| RECEIVE_EXPEDITED ||| ABORT ||| CONNECT_FAIL), .popped 3,
      .polled 2 (RECEIVE ||| ACCEPT ||| DISCONNECT ||| RECEIVE_EXPEDITED ||| ABORT ||| CONNECT_FAIL), .popped 2,
      .polled 1 (SEND ||| ABORT ||| CONNECT_FAIL), .popped 1, .waitBegin] ++ tr := by
  decide +kernel

/-- The exception: the OS refuses one operation while `wait` empties the queue.  The `wait` fails (with an error of a socket it
was not called for), the update is gone, the `add` had returned `Ok`, and a later `wait` does not make up for it. -/
theorem iocp_update_lost : ∃ s tr, Reach 3 Any s tr ∧ registered tr true 7 = some 1 ∧ (∀ t, s.pc t = .out) ∧ ¬ Holder s 1 ∧ ¬ InSync s tr 1 ∧
    s.phase = .port ⟨false, 4, false, 0, []⟩ ∧
    tr.filter (· ≠ .tau) = [.waitBegin, .waitErr (.os 8), .popped 1, .waitBegin, .ret 0 (.add true 7 (Event.onlyReadable 5) .level) .ok, .queued 1,
      .inserted 0 true 7 1 (Event.onlyReadable 5) .level, .begin 0 (.add true 7 (Event.onlyReadable 5) .level)] := by
  obtain ⟨s, tr, hreach, hck⟩ := witness (addActs 0 true 7 (Event.onlyReadable 5) .level ++
      [.waitBegin false 4, .wait none, .wait none, .wait none, .wait (some (.os 8)), .wait none] ++ blockActs 0 4)
    (fun s tr => decide (registered tr true 7 = some 1) && decide (tr.filter (· ≠ .tau) = [.waitBegin, .waitErr (.os 8), .popped 1, .waitBegin, .ret 0 (.add true 7 (Event.onlyReadable 5) .level) .ok, .queued 1,
      .inserted 0 true 7 1 (Event.onlyReadable 5) .level, .begin 0 (.add true 7 (Event.onlyReadable 5) .level)]) &&
      decide (s.c.pk 1 = .socket ⟨7, Event.onlyReadable 5, true, .level, false, .idle, true, .none⟩) &&
      decide (s.phase = .port ⟨false, 4, false, 0, []⟩) && decide (s.c.pending = []) && quietB s) (by decide +kernel)
  simp only [Bool.and_eq_true, decide_eq_true_eq] at hck
  obtain ⟨⟨⟨⟨⟨h1, h2⟩, hpk⟩, hph⟩, hpe⟩, hq⟩ := hck
  refine ⟨s, tr, hreach, h1, quiet_pc hreach hq, ?_, ?_, hph, h2⟩
  · rintro (h | ⟨t, h⟩ | h)
    · rw [hpe] at h; cases h
    · rw [quiet_pc hreach hq t] at h; exact h
    · rw [hph] at h; exact h
  · rintro ⟨q, k, _, hk, h⟩
    rw [hpk] at hk; cases hk
    rcases h with ⟨m, h, _⟩ | ⟨m, h⟩ | ⟨⟨r, h⟩, _⟩ <;> cases h

end Polling.C29
