import Verif.Proof.LiveIocpHelp
import Verif.Proof.ApiIocpCount
import Verif.Props.C44
import Verif.Props.C58

/-! C58: a program that asked for an event gets it: IOCP. -/

namespace Polling.C58
open IocpM Iocp IocpSpec Live

/-- The OS has an operation for the packet `p` in flight and completes it, with those of the conditions `cond` the operation asks for;
then the `wait` in progress returns by its own steps, with an event that has this key. -/
def Served (n : Nat) (s : S) (p : PId) (cond : Mask) (key : Key) : Prop :=
  ∃ asked s1, step n s (.complete p (.ok 1 (cond &&& asked))) = some (s1, .tau) ∧ Gives n s1 key

/-- The socket has a condition that counts as readable (0 data, 1 urgent data, 3 the peer shut down, 7 a connection to accept) and was
asked for, or room to send (2), and was asked for. -/
def Ready (r w : Bool) (cond : Mask) : Prop := r = true ∧ (∃ i ∈ [0, 1, 3, 7], cond.getLsbD i = true) ∨ w = true ∧ cond.getLsbD 2 = true

theorem served {n s tr w} (h : Reach n (fun s a => Accepts s a ∧ NoRace s a) s tr) (hph : s.phase = .port w) {fd p q}
    (hreg : registered tr true fd = some p) (hq : reg tr p = some q) (harm : armed q = true) (hroom : s.c.port.length < w.cap) {cond}
    (hready : Ready q.ev.readable q.ev.writable cond) {k m} (hk : s.c.pk p = .socket k) (hop : k.op = .inFlight m false) (ha : Asks q m) :
    Served n s p cond q.ev.key := by
  have hti := reach_ti h
  have hrg := hti.regs p
  rw [hk] at hrg
  obtain ⟨q', hq', hsock, _, _, _, _, hi, _⟩ := hrg
  rw [hq] at hq'; cases hq'
  have hint : k.interest = q.ev := by
    rw [hi]; unfold interestOf
    rw [if_neg]
    rintro ⟨h1, h2⟩
    unfold armed at harm
    rw [h1, h2] at harm; cases harm
  have hd : k.waitingOnDelete = false := by
    cases hw : k.waitingOnDelete with
    | false => rfl
    | true =>
      have hgone := (reach_gone h).2 p
      rw [hk] at hgone
      rw [hti.tab] at hreg
      exact absurd hreg (hgone hw _ _)
  have hst : k.status ≠ .idle := by
    intro h0
    have := reach_opOk h p
    rw [hk] at this
    rw [this.2 h0] at hop; cases hop
  have hpos : possible m false (.ok 1 (cond &&& m)) = true := by
    simp only [possible, beq_iff_eq]
    ext i hi
    simp
  have hs : step n s (.complete p (.ok 1 (cond &&& m))) =
      some ({ s with c := { setPk s.c p (.socket { k with op := .done (.ok 1 (cond &&& m)) }) with port := s.c.port ++ [p] } }, .tau) := by
    simp only [step, hk, hop, hpos, if_true]
  refine ⟨m, _, hs, ?_⟩
  refine done_gives (w := w) (p := p) (tr := .tau :: tr) (h.any.step trivial hs) hph ?_ (reach_key h p q hq hsock) ?_
  · refine ⟨{ k with op := .done (.ok 1 (cond &&& m)) }, _, setPk_self _ _ _, rfl, hst, hd, by rw [← hint], ?_⟩
    have hraw : (rawEvent q.ev.key (.ok 1 (cond &&& m))).readable = anyOf (cond &&& m) [0, 1, 3, 7, 4, 8] ∧
        (rawEvent q.ev.key (.ok 1 (cond &&& m))).writable = anyOf (cond &&& m) [2, 4, 8] := by
      rw [← C44.readable_bits, ← C44.writable_bits]; exact ⟨rfl, rfl⟩
    rw [hraw.1, hraw.2]
    dsimp only
    rw [hint]
    have bit : ∀ i, i < 32 → cond.getLsbD i = true → watches q i = true → (cond &&& m).getLsbD i = true := by
      intro i hi h1 h2
      rw [BitVec.getLsbD_and, h1, ha i hi, h2]; rfl
    have any : ∀ l i, i ∈ l → (cond &&& m).getLsbD i = true → anyOf (cond &&& m) l = true := by
      intro l i h1 h2
      unfold anyOf
      exact List.any_eq_true.2 ⟨i, h1, h2⟩
    rcases hready with ⟨hr, i, hi, hc⟩ | ⟨hw, hc⟩
    · left
      rw [hr, Bool.and_true]
      refine any _ i (by simp at hi ⊢; omega) (bit i (by simp at hi; omega) hc ?_)
      unfold watches
      rw [harm, hr]
      simp at hi ⊢
      rcases hi with rfl | rfl | rfl | rfl <;> simp
    · right
      rw [hw, Bool.and_true]
      refine any _ 2 (by simp) (bit 2 (by omega) hc ?_)
      unfold watches
      rw [harm, hw]
      simp
  · show p ∈ List.take w.cap (s.c.port ++ [p])
    rw [List.take_of_length_le (by simp; omega)]
    simp

theorem live_settled (n : Nat) (s : S) (tr : List IObs) (h : Reach n (fun s a => Accepts s a ∧ NoRace s a) s tr) (w : W)
    (hph : s.phase = .port w) (fd : Fd) (key : Key) (r wr : Bool) (mode : PollMode) (hask : Asked (tr.flatMap ofIObs) fd key r wr mode)
    (hagain : .waitAgain ∈ tr → mode = .level) (hcalls : ∀ t p, registered tr true fd = some p → ¬ (s.pc t).holds p) (hroom : s.c.port.length < w.cap)
    (cond : Mask) (hready : Ready r wr cond) :
    ∃ p, registered tr true fd = some p ∧ (Served n s p cond key ∨
      ∃ s1, (s1 = s ∧ p ∈ s.c.port ∨ step n s (.complete p .cancelled) = some (s1, .tau)) ∧
        (Returns n s1 ∨ ∃ obs s2 w2, Solo n s1 obs s2 ∧ s2.phase = .port w2 ∧ Served n s2 p cond key)) := by
  obtain ⟨p, q, hreg, hq, rfl, rfl, rfl, rfl, hf, _⟩ := asked_registered h hph hagain hask
  have harm : ∀ q : Reg, (q.mode = .level ∨ q.fired = false) → armed q = true := by
    intro q hf
    unfold armed
    rcases hf with hf | hf <;> rw [hf]
    · cases q.fired <;> rfl
    · rfl
  refine ⟨p, hreg, ?_⟩
  obtain ⟨q', k, hq', hk, hop⟩ := C28.iocp_takes_effect_partial n s tr h w hph fd p hreg (fun t => hcalls t p hreg)
  rw [hq] at hq'; cases hq'
  -- once the earlier operation is complete
  have go : ∀ (s1 : S) (tr1 : List IObs), Reach n (fun s a => Accepts s a ∧ NoRace s a) s1 tr1 → s1.phase = .port w → s1.pc = s.pc →
      s1.c.port ≠ [] → s1.c.port.length ≤ w.cap → (∃ k r, s1.c.pk p = .socket k ∧ k.op = .done r) → tr1.flatMap ofIObs = tr.flatMap ofIObs →
      (.waitAgain ∈ tr1 → q.mode = .level) → (registered tr1 true fd = some p) →
      Returns n s1 ∨ ∃ obs s2 w2, Solo n s1 obs s2 ∧ s2.phase = .port w2 ∧ Served n s2 p cond q.ev.key := by
    intro s1 tr1 h1 hph1 hpc1 hne hle ⟨k1, r1, hk1, hop1⟩ hv hag hreg1
    have hfine : s1.phase.fine := by rw [hph1]; trivial
    rcases solo_round h1.any hph1 hne with g | ⟨_, s2, obs, w2, hso, hph2, hcap, _, _, hpc2, hport⟩
    · exact .inl g
    · rcases solo_quiet hso h1.any hfine with ⟨_, hquiet, hna, hrs⟩ | g
      · rcases solo_steady (p := p) hso h1.any hfine ⟨k1, hk1, fun m c h => by rw [hop1] at h; cases h⟩ with hst | g
        · right
          refine ⟨obs, s2, w2, hso, hph2, ?_⟩
          have h2 := hso.reachP h1
          have hask2 : Asked ((obs ++ tr1).flatMap ofIObs) fd q.ev.key q.ev.readable q.ev.writable q.mode := by
            rw [List.flatMap_append, hquiet, hv]; exact hask
          obtain ⟨p2, q2, hreg2, hq2, e1, e2, e3, e4, hf2, _⟩ := asked_registered h2 hph2
            (fun hm => hag ((List.mem_append.1 hm).resolve_left hna)) hask2
          have hpp : p2 = p := by
            rw [hrs, hreg1] at hreg2; cases hreg2; rfl
          subst hpp
          obtain ⟨q3, k3, hq3, hk3, hop3⟩ := C28.iocp_takes_effect_partial n s2 _ h2 w2 hph2 fd p2 hreg2 (fun t => by rw [hpc2, hpc1]; exact hcalls t p2 hreg)
          rw [hq2] at hq3; cases hq3
          have hport0 : s2.c.port = [] := by rw [hport]; exact List.drop_eq_nil_of_le hle
          rcases hop3 with ⟨m, ho, ha⟩ | ⟨m, ho⟩ | ⟨_, hin⟩
          · rw [← e1]
            refine served h2 hph2 hreg2 hq2 (harm q2 (by rw [e4]; exact hf2)) ?_ (by rw [e2, e3]; exact hready) hk3 ho ha
            rw [hport0, hcap]
            exact Nat.lt_of_le_of_lt (Nat.zero_le _) hroom
          · obtain ⟨k4, hk4, ho4⟩ := hst
            rw [hk3] at hk4; cases hk4
            have := (ho4 m true ho).1
            cases this
          · rw [hph2, hport0] at hin; cases hin
        · exact .inl g
      · exact .inl g
  rcases hop with ⟨m, hop, ha⟩ | ⟨m, hop⟩ | ⟨⟨res, hop⟩, hin⟩
  · exact .inl (served h hph hreg hq (harm q hf) hroom hready hk hop ha)
  · right
    have hs : step n s (.complete p .cancelled) =
        some ({ s with c := { setPk s.c p (.socket { k with op := .done .cancelled }) with port := s.c.port ++ [p] } }, .tau) := by
      simp only [step, hk, hop, possible, if_true]
    refine ⟨_, .inr hs, go _ _ (h.step (a := .complete p .cancelled) ⟨trivial, trivial⟩ hs) hph rfl (by simp) (by simp; omega) ⟨_, _, setPk_self _ _ _, rfl⟩ rfl ?_ hreg⟩
    intro hm
    exact hagain ((List.mem_cons.1 hm).resolve_left nofun)
  · right
    rw [hph] at hin
    have hin : p ∈ s.c.port := hin
    exact ⟨s, .inl ⟨rfl, hin⟩, go s tr h hph rfl (fun h0 => by rw [h0] at hin; cases hin) (Nat.le_of_lt hroom) ⟨k, res, hk, hop⟩ rfl hagain hreg⟩

/-- In every reachable state of the IOCP poller, for any number of threads: the program's latest call for a socket was a successful
`add` or `modify` in level or one-shot mode that overlapped with no other call for it, in one-shot mode the program has not been told
since, and the socket is in a state the program asked for.  Then a `wait` that is blocked at the port, with room in its buffer, does not
stay there.  The OS has an operation in flight that asks for what the program wants, it completes, and the `wait` returns by its own
steps with an event that carries the key the program gave.  Or an earlier operation of the socket is complete, or cancelled and completes
now: then the `wait` returns, or else gets back to the port by its own steps and the first case holds.
All this after the threads that have just taken the registration off the queue of updates, while working on another source, have made the
update (`Helps`: one step of each of them, if there are any).
Missing for the full property: failures of the OS (`C26.iocp_refused_is_forgotten`; and after an interrupted `wait`, only level mode),
and the race `C28.iocp_update_stranded` (`NoRace`). -/
theorem iocp_live_partial (n : Nat) (s : S) (tr : List IObs) (h : Reach n (fun s a => Accepts s a ∧ NoRace s a) s tr) (w : W)
    (hph : s.phase = .port w) (fd : Fd) (key : Key) (r wr : Bool) (mode : PollMode) (hask : Asked (tr.flatMap ofIObs) fd key r wr mode)
    (hagain : .waitAgain ∈ tr → mode = .level) (hroom : s.c.port.length < w.cap) (cond : Mask) (hready : Ready r wr cond) :
    ∃ p obs s0, registered tr true fd = some p ∧ Helps n p s obs s0 ∧ s0.phase = .port w ∧ (Served n s0 p cond key ∨
      ∃ s1, (s1 = s0 ∧ p ∈ s0.c.port ∨ step n s0 (.complete p .cancelled) = some (s1, .tau)) ∧
        (Returns n s1 ∨ ∃ obs s2 w2, Solo n s1 obs s2 ∧ s2.phase = .port w2 ∧ Served n s2 p cond key)) := by
  obtain ⟨p, q, hreg, hq, _, _, _, _, _, halone⟩ := asked_registered h hph hagain hask
  obtain ⟨obs, s0, hh, hno⟩ := help_all (p := p) h n
  have h0 := hh.reach tr h
  have hph0 : s0.phase = .port w := hh.phase.trans hph
  have hv : ∀ l : List IObs, (∀ o ∈ l, o = .tau ∨ ∃ m, o = .polled p m) →
      l.flatMap ofIObs = [] ∧ .waitAgain ∉ l ∧ registered (l ++ tr) = registered tr := by
    intro l
    induction l with
    | nil => intro _; exact ⟨rfl, by simp, rfl⟩
    | cons o l ih =>
      intro hl
      obtain ⟨i1, i2, i3⟩ := ih fun o ho => hl o (List.mem_cons_of_mem _ ho)
      rcases hl o List.mem_cons_self with rfl | ⟨m, rfl⟩
      · exact ⟨i1, by simpa using i2, by rw [← i3]; rfl⟩
      · exact ⟨i1, by simpa using i2, by rw [← i3]; rfl⟩
  obtain ⟨v1, v2, v3⟩ := hv obs hh.quiet
  have hask0 : Asked ((obs ++ tr).flatMap ofIObs) fd key r wr mode := by rw [List.flatMap_append, v1]; exact hask
  have hagain0 : .waitAgain ∈ obs ++ tr → mode = .level := fun hm => hagain ((List.mem_append.1 hm).resolve_left v2)
  obtain ⟨p0, q0, hreg0, hq0, _, _, _, _, _, halone0⟩ := asked_registered h0 hph0 hagain0 hask0
  have hpp : p0 = p := by rw [v3, hreg] at hreg0; cases hreg0; rfl
  subst hpp
  have hcalls : ∀ t x, registered (obs ++ tr) true fd = some x → ¬ (s0.pc t).holds x := by
    intro t x hx hhold
    rw [hreg0] at hx; cases hx
    have hid := ident_reg (reach_ti h0) hq0
    obtain ⟨e1, e2⟩ : q0.sock = true ∧ q0.fd = fd := by
      have := (reach_ti h0).ids _ _ _ (by rw [← (reach_ti h0).tab]; exact hreg0)
      rw [hid] at this; simpa using this
    have own : ∀ call u, s0.pc t = .upd call u → p0 ≠ u.own := by
      intro call u hpc e
      have := reach_updating h0 t call p0 (by rw [hpc, e]; rfl)
      rw [hid] at this
      simp only [Option.some.injEq, Prod.mk.injEq] at this
      exact halone0 t call (by rw [hpc]; rfl) (by rw [← this.1, e1]) (by rw [← this.2, e2])
    cases hpc : s0.pc t with
    | upd call u =>
      rw [hpc] at hhold
      cases u with
      | drain p' m q' =>
        rcases hhold with e | e
        · exact own call _ hpc e
        · subst e
          have ht : t < n := by
            by_cases hlt : t < n
            · exact hlt
            · rw [reach_threads h0 t (by omega)] at hpc; cases hpc
          exact hno t ht ⟨call, p', m, hpc⟩
      | _ => exact own call _ hpc hhold
    | _ => rw [hpc] at hhold; exact hhold
  obtain ⟨p1, hreg1, hres⟩ := live_settled n s0 (obs ++ tr) h0 w hph0 fd key r wr mode hask0 hagain0 hcalls (by rw [hh.port]; exact hroom) cond hready
  rw [hreg0] at hreg1; cases hreg1
  exact ⟨p0, obs, s0, hreg, hh.run, hph0, hres⟩

/-- Steps that no call fails in, with no call about to use the queue while a `wait` is on its way to the port. -/
def calm (s : S) : Act → Bool
  | .go _ fault => fault.isNone && !s.c.polling
  | .wait fault | .callbackPost _ fault => fault.isNone
  | _ => true

theorem calm_ok {s : S} {a : Act} (h : calm s a = true) : Accepts s a ∧ NoRace s a := by
  cases a with
  | go t fault =>
    cases fault with
    | none => exact ⟨trivial, fun _ _ _ => by simpa [calm] using h⟩
    | some e => cases h
  | wait fault => cases fault with
    | none => exact ⟨trivial, trivial⟩
    | some e => cases h
  | callbackPost p fault => cases fault with
    | none => exact ⟨trivial, trivial⟩
    | some e => cases h
  | _ => exact ⟨trivial, trivial⟩

/-- Such a run. -/
def runCalm (n : Nat) : S × List IObs → List Act → Option (S × List IObs)
  | x, [] => some x
  | x, a :: as => if calm x.1 a then (step n x.1 a).bind fun r => runCalm n (r.1, r.2 :: x.2) as else none

theorem runCalm_reach {n} : ∀ (as : List Act) {s tr x}, Reach n (fun s a => Accepts s a ∧ NoRace s a) s tr → runCalm n (s, tr) as = some x →
    Reach n (fun s a => Accepts s a ∧ NoRace s a) x.1 x.2 := by
  intro as
  induction as with
  | nil => intro s tr x h hr; cases hr; exact h
  | cons a as ih =>
    intro s tr x h hr
    simp only [runCalm] at hr
    split at hr
    · rename_i hc
      rw [Option.bind_eq_some_iff] at hr
      obtain ⟨⟨s1, o⟩, hs, hr⟩ := hr
      exact ih (h.step (calm_ok hc) hs) hr
    · cases hr

/-- The run of `seen`, on Windows. -/
example : ∃ s tr w, Reach 3 (fun s a => Accepts s a ∧ NoRace s a) s tr ∧ s.phase = .port w ∧ Asked (tr.flatMap ofIObs) 7 18 true false .oneshot ∧
    .waitAgain ∉ tr ∧ (∀ t p, ¬ (s.pc t).holds p) ∧ s.c.port.length < w.cap ∧ Ready true false RECEIVE := by
  have hr : (runCalm 3 (init, []) (addActs 1 true 7 (Event.onlyReadable 17) .oneshot ++ blockActs 1 4 ++ [.complete 1 (.ok 1 RECEIVE)] ++ takeActs ++
      modActs 1 true 7 (Event.onlyReadable 18) .oneshot ++ addActs 1 true 8 (Event.onlyReadable 27) .oneshot ++ blockActs 3 4 ++
      [.complete 2 (.ok 1 RECEIVE)] ++ takeActs ++ blockActs 1 4)).map
      (fun x => (x.1.phase, x.2.flatMap ofIObs, x.1.c.port.length, [x.1.pc 0, x.1.pc 1, x.1.pc 2], x.2.all (· ≠ .waitAgain))) =
      some (.port ⟨false, 4, false, 0, []⟩, seen 1, 0, [.out, .out, .out], true) := by
    decide +kernel
  rw [Option.map_eq_some_iff] at hr
  obtain ⟨⟨s, tr⟩, hr, he⟩ := hr
  simp only [Prod.mk.injEq] at he
  have hreach := runCalm_reach _ .init hr
  obtain ⟨h1, h2, h3, h4, h5⟩ := he
  simp only [List.cons.injEq, and_true] at h4
  refine ⟨s, tr, _, hreach, h1, by rw [h2]; exact seen_asked 1, ?_, ?_, by rw [h3]; decide, .inl ⟨rfl, 0, by simp, by decide⟩⟩
  · intro hm
    have := List.all_eq_true.1 h5 _ hm
    simp at this
  · intro t p hh
    have hout : s.pc t = .out := by
      by_cases ht : 3 ≤ t
      · exact reach_threads hreach t ht
      · have : t = 0 ∨ t = 1 ∨ t = 2 := by omega
        rcases this with rfl | rfl | rfl
        · exact h4.1
        · exact h4.2.1
        · exact h4.2.2
    rw [hout] at hh; exact hh

theorem view_filter (tr : List IObs) : (tr.filter (· ≠ .tau)).flatMap ofIObs = tr.flatMap ofIObs := by
  induction tr with
  | nil => rfl
  | cons o tr ih =>
    rw [List.filter_cons]
    split
    · rw [List.flatMap_cons, List.flatMap_cons, ih]
    · rename_i h
      have : o = .tau := by simpa using h
      rw [ih, this, List.flatMap_cons]; rfl

/-- The exception (`C28.iocp_update_stranded`): the program's `add` returned `Ok`, no call is in progress and the OS refused nothing, and still
a `wait` with room in its buffer sleeps: the OS is not asked to watch the socket, so that no operation can complete. -/
theorem iocp_live_stranded : ∃ s tr w, Reach 3 Any s tr ∧ s.phase = .port w ∧ Asked (tr.flatMap ofIObs) 7 5 true false .level ∧ .waitAgain ∉ tr ∧
    (∀ t, s.pc t = .out) ∧ registered tr true 7 = some 1 ∧ s.c.port.length < w.cap ∧ step 3 s .get = none ∧ ∀ r, step 3 s (.complete 1 r) = none := by
  obtain ⟨s, tr, h1, h2, _, h4, h5, _, h7, h8, h9⟩ := C28.iocp_update_stranded
  refine ⟨s, tr, _, h1, h2, ?_, ?_, h5, h4, ?_, h7, h8⟩
  · rw [← view_filter, h9]
    exact ⟨[.ret 0 true], 0, [], rfl, rfl, (by intro u call h; simp at h), (by intro u call h; cases h), .inl rfl⟩
  · intro hm
    have : .waitAgain ∈ tr.filter (· ≠ .tau) := List.mem_filter.2 ⟨hm, rfl⟩
    rw [h9] at this; simp at this
  · cases hp : s.c.port with
    | nil => show 0 < 4; decide
    | cons x l =>
      simp only [step, h2, hp] at h7
      simp at h7

end Polling.C58
