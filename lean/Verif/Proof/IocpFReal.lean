import Verif.Proof.IocpFRun

/- Every behaviour of the coarse machine, except late failures of a cancellation, is one of the fine-grained machine. -/

namespace Polling.IocpF
open Iocp IocpSpec IocpM

/-- The system calls of an update or deletion of a packet that is being polled fail only while its operation is in flight (the code
does not make the call if it sees that the operation completed). -/
def EarlyAt (s : S) (site : Option (Kind × PId)) : Prop :=
  ∀ k p x flags, site = some (k, p) → k = .upd ∨ k = .del → s.c.pk p = .socket x → x.status = .polling flags → ∃ m c, x.op = .inFlight m c

def Early (s : S) : Act → Prop
  | .go t (some _) => EarlyAt s (pcSite (s.pc t))
  | .wait (some _) => EarlyAt s (phaseSite s.phase)
  | _ => True

/-- Nobody is in a critical section, and no result is half delivered. -/
structure Quiet (f : F) : Prop where
  sec : f.sec = fun _ => none
  taken : f.taken = none
  written : f.written = fun _ => none

theorem quiet_abs {f} (h : Quiet f) : abs f = f.m := by
  have h1 : absPk f.taken f.sec f.m.c.pk = f.m.c.pk := by
    funext p
    unfold absPk
    rw [h.sec, h.taken]
    cases f.m.c.pk p <;> rfl
  have h2 : (fun t => absPc t f.sec f.m.c.pk (f.m.pc t)) = f.m.pc := by
    funext t
    exact absPc_free fun _ _ _ => by rw [h.sec]; exact outOf_ne nofun
  have h3 : absPhase f.sec f.m.c.pk f.m.phase = f.m.phase :=
    absPhase_free fun _ _ _ => by rw [h.sec]; exact outOf_ne nofun
  unfold abs
  rw [h1, h2, h3]

theorem any_lift {n f tr} (h : FReach n FAny f tr) : FReach n (lift Any) f tr := by
  induction h with
  | init => exact .init
  | step _ _ hs ih => exact .step ih (fun _ _ => trivial) hs

/-- The fine-grained machine refines the coarse one. -/
theorem refine_any {n f tr} (h : FReach n FAny f tr) : Reach n Any (abs f) tr ∧ Inv n f := refine (any_lift h)

/-- What is to be shown of a step. -/
def Realized (n : Nat) (s : S) (tr : List IObs) : Prop := ∃ f, FReach n FAny f tr ∧ Quiet f ∧ f.m = s

theorem real_plain {n f tr a s' o} (hf : FReach n FAny f tr) (hq : Quiet f) (hp : plain f a = true) (ha : ∀ p r, a ≠ .complete p r)
    (hs : step n f.m a = some (s', o)) : Realized n s' (o :: tr) := by
  have hstep : fstep n f (.plain a) = some ({ f with m := s', taken := takenAfter f a, written := writtenAfter f a }, some o) := by
    show (if plain f a = true then _ else none) = _
    rw [if_pos hp, hs]; rfl
  refine ⟨_, .step hf trivial hstep, ⟨hq.sec, ?_, ?_⟩, rfl⟩
  · show takenAfter f a = none
    cases a <;> first | rfl | exact hq.taken
  · show writtenAfter f a = _
    cases a <;> first | exact hq.written | (rename_i p r; exact absurd rfl (ha p r))

/-- The observations of the accesses of a section; `set_events` takes effect when the mutex is taken. -/
def marksOf : Kind → Mark → List Mark
  | .set _ _, _ => []
  | _, m => [m]

theorem whole {k fault x b pos} (he : entry k x = some pos)
    (hF : ∀ s flags, x = .socket s → k = .upd ∨ k = .del → s.status = .polling flags → fault = none ∨ b.status = .pending)
    (hreg : ∀ w, x = .waitable w → w.registered = true → w.status = .waiting)
    (hfeed : k = .feed → ∀ s, x = .socket s → s.inUse = false ∧ ∃ r, s.op = .done r ∧ Matches b r ∧ isLocalClose r = false) :
    Whole k fault pos x b (marksOf k) := by
  cases x with
  | socket s =>
    cases k with
    | set ev mode => cases he; exact run_set
    | upd => cases he; exact run_upd fun flags h => hF s flags rfl (.inl rfl) h
    | del => cases he; exact run_del fun flags h => hF s flags rfl (.inr rfl) h
    | feed => cases he; obtain ⟨h1, r, h2, h3, h4⟩ := hfeed rfl s rfl; exact run_feed h1 h2 h3 h4
    | cb => cases he
  | waitable w =>
    cases k with
    | set ev mode => cases he; exact run_wset
    | upd => cases he; exact run_wupd
    | del => cases he; exact run_wdel (hreg w rfl)
    | feed => cases he; exact run_wfeed
    | cb => cases he; exact run_cb (hreg w rfl)
  | free => cases k <;> cases he
  | custom ev => cases k <;> cases he
  | wakeup => cases k <;> cases he

theorem adv_thread (m : S) (t ms) : adv m (.thread t) ms = m := by
  induction ms with
  | nil => rfl
  | cons a ms ih => exact ih

theorem adv_waiter (m : S) (ms) : adv m .waiter ms = m := by
  induction ms with
  | nil => rfl
  | cons a ms ih => exact ih

/-- A section from lock to unlock. -/
theorem real_section {n f tr who k p fault pos} (hf : FReach n FAny f tr) (hsec : f.sec = fun _ => none) (hw : f.written = fun _ => none)
    (ht : f.taken = none ∨ who = .waiter)
    (hsite : site f.m who = some (k, p)) (htk : k = .feed → f.taken = some p) (he : entry k (f.m.c.pk p) = some pos)
    (hwhole : Whole k fault pos (f.m.c.pk p) (f.buf p) (marksOf k)) :
    Realized n
      (resume { adv f.m who (marksOf k (atomic k fault (f.m.c.pk p)).2.2) with c := setPk f.m.c p (atomic k fault (f.m.c.pk p)).2.1 } who
        (atomic k fault (f.m.c.pk p)).1)
      (whoObs f.m who p (atomic k fault (f.m.c.pk p)).2.2 :: tr) := by
  have hlock : fstep n f (.lock who p) = some ({ f with sec := put f.sec p (some (who, pos)) }, lockObs f.m p who) := by
    show (match site f.m who with | some (k, q) => _ | none => none) = _
    rw [hsite]
    dsimp only
    rw [if_pos ⟨rfl, by rw [hsec], htk⟩, he]; rfl
  obtain ⟨b', hrun⟩ := hwhole
  have h1 := reach_run (who := who) (p := p) hrun (.step hf trivial hlock) (put_self _ _ _) rfl rfl
  refine ⟨ended { f with sec := put f.sec p (some (who, pos)) } p who (atomic k fault (f.m.c.pk p)).1 (atomic k fault (f.m.c.pk p)).2.1 b'
    (marksOf k (atomic k fault (f.m.c.pk p)).2.2), ?_, ⟨?_, ?_, hw⟩, rfl⟩
  · have e : (((marksOf k (atomic k fault (f.m.c.pk p)).2.2).map fun mk => mk.obs f.m who p).reverse ++ ((lockObs f.m p who).toList ++ tr)) =
        whoObs f.m who p (atomic k fault (f.m.c.pk p)).2.2 :: tr := by
      unfold whoObs
      by_cases hk : ∃ ev mode, k = .set ev mode
      · obtain ⟨ev, mode, rfl⟩ := hk
        obtain ⟨t, rfl, o, ho⟩ := lockObs_set (p := p) hsite
        rw [ho]; rfl
      · have hk : ∀ ev mode, k ≠ .set ev mode := fun ev mode h => hk ⟨ev, mode, h⟩
        rw [lockObs_kind hsite hk]
        cases k with
        | set ev mode => exact absurd rfl (hk ev mode)
        | _ => rfl
    rw [← e]
    exact h1
  · show put (put f.sec p _) p none = _
    rw [put_put, hsec]
    funext q
    unfold put
    split <;> rfl
  · show (if who = .waiter then none else f.taken) = none
    split
    · rfl
    · rename_i h
      rcases ht with ht | ht
      · exact ht
      · exact absurd ht h

theorem quiet_buf {n f tr p x} (hf : FReach n FAny f tr) (hw : f.written = fun _ => none) (hx : f.m.c.pk p = .socket x) :
    (∀ m c, x.op = .inFlight m c → (f.buf p).status = .pending) ∧ ∀ r, x.op = .done r → Matches (f.buf p) r := by
  have := (refine_any hf).2.buf p x hx
  rw [hw] at this
  constructor
  · intro m c h; rw [h] at this; exact this
  · intro r h; rw [h] at this; exact this.2

theorem real_go {n f tr t fault s' o} (hf : FReach n FAny f tr) (hq : Quiet f) (he : Early f.m (.go t fault))
    (hs : step n f.m (.go t fault) = some (s', o)) : Realized n s' (o :: tr) := by
  cases hl : locks f.m (.thread t) with
  | false => exact real_plain hf hq (by show (!locks f.m (.thread t)) = true; rw [hl]; rfl) (fun _ _ h => by cases h) hs
  | true =>
    unfold locks at hl
    cases hsite : site f.m (.thread t) with
    | none => rw [hsite] at hl; cases hl
    | some kp =>
      obtain ⟨k, p⟩ := kp
      rw [hsite] at hl
      dsimp only at hl
      obtain ⟨pos, hpos⟩ := Option.isSome_iff_exists.mp hl
      have htn : t < n := by
        apply Nat.lt_of_not_le
        intro h
        simp only [step] at hs
        rw [if_pos h] at hs; cases hs
      have hab := quiet_abs hq
      have hr := (refine_any hf).1
      rw [hab] at hr
      have hkind := thread_kind hsite
      have hco := coarse_thread (fault := fault) htn hsite hl
      rw [hs] at hco
      cases hco
      have hwhole : Whole k fault pos (f.m.c.pk p) (f.buf p) (marksOf k) := by
        refine whole hpos ?_ (fun w hw => reach_reg hr p w hw) (fun h => absurd h hkind.2)
        intro x flags hx hk hst
        cases fault with
        | none => exact .inl rfl
        | some e =>
          obtain ⟨m, c, ho⟩ := he k p x flags hsite hk hx hst
          exact .inr ((quiet_buf hf hq.written hx).1 m c ho)
      have := real_section hf hq.sec hq.written (.inl hq.taken) hsite (fun h => absurd h hkind.2) hpos hwhole
      rw [adv_thread] at this
      exact this

theorem real_wait {n f tr fault s' o} (hf : FReach n FAny f tr) (hq : Quiet f) (he : Early f.m (.wait fault))
    (hs : step n f.m (.wait fault) = some (s', o)) : Realized n s' (o :: tr) := by
  have hab := quiet_abs hq
  have hr := (refine_any hf).1
  rw [hab] at hr
  by_cases hfd : ∃ w p b, f.m.phase = .feed w (p :: b)
  · -- a completion entry is converted first
    obtain ⟨w, p, b, hph⟩ := hfd
    have htake : fstep n f .take = some ({ f with m := { f.m with c := setPk f.m.c p (clearInUse (f.m.c.pk p)) }, taken := some p }, none) := by
      show (match f.m.phase with | .feed _ (p :: _) => _ | _ => none) = _
      rw [hph]
      dsimp only
      rw [if_pos hq.taken]
    have hf1 : FReach n FAny _ tr := .step hf trivial htake
    have hsite : phaseSite f.m.phase = some (.feed, p) := by rw [hph]; rfl
    have hx1 : (setPk f.m.c p (clearInUse (f.m.c.pk p))).pk p = clearInUse (f.m.c.pk p) := setPk_self _ _ _
    have hent : entry .feed (clearInUse (f.m.c.pk p)) = entry .feed (f.m.c.pk p) := by cases f.m.c.pk p <;> rfl
    cases hen : entry .feed (f.m.c.pk p) with
    | none =>
      -- no mutex
      have hcl : clearInUse (f.m.c.pk p) = f.m.c.pk p := by
        cases h : f.m.c.pk p with
        | socket x => rw [h] at hen; cases hen
        | _ => rfl
      rw [hcl, setPk_id] at hf1
      have hp : plain { f with m := { f.m with c := f.m.c }, taken := some p } (.wait fault) = true := by
        show (!locks f.m .waiter && !untaken { f with m := { f.m with c := f.m.c }, taken := some p }) = true
        have h1 : locks f.m .waiter = false := by
          unfold locks
          rw [show site f.m .waiter = some (.feed, p) from hsite]
          dsimp only
          rw [hen]; rfl
        have h2 : untaken { f with m := { f.m with c := f.m.c }, taken := some p } = false := by
          unfold untaken
          dsimp only
          rw [hph]; rfl
        rw [h1, h2]; rfl
      have hstep : fstep n { f with m := { f.m with c := f.m.c }, taken := some p } (.plain (.wait fault)) =
          some ({ f with m := s', taken := none }, some o) := by
        show (if _ = true then _ else none) = _
        rw [if_pos hp]
        show (step n f.m (.wait fault)).map _ = _
        rw [hs]; rfl
      exact ⟨_, .step hf1 trivial hstep, ⟨hq.sec, rfl, hq.written⟩, rfl⟩
    | some pos =>
      have hdone : ∀ x, f.m.c.pk p = .socket x → ∃ r, x.op = .done r ∧ Matches (f.buf p) r ∧ isLocalClose r = false := by
        intro x hx
        have hd := entry_done (f := f) (by rw [hab]; exact hr) hx (by rw [hq.taken]; nofun) (by rw [hab, hph]; exact List.mem_cons_self)
        cases hop : x.op with
        | done r =>
          refine ⟨r, rfl, (quiet_buf hf hq.written hx).2 r hop, noClose_local fun n ev hr' => ?_⟩
          have := reach_clean hr p
          rw [hx] at this
          exact this.2.2 n ev (by rw [hop, hr'])
        | none => rw [hop] at hd; cases hd
        | inFlight m c => rw [hop] at hd; cases hd
      have hat : atomic .feed fault (clearInUse (f.m.c.pk p)) = atomic .feed fault (f.m.c.pk p) := by
        cases hx : f.m.c.pk p with
        | socket x =>
          obtain ⟨r, hop, _⟩ := hdone x hx
          simp only [clearInUse, atomic, hop]
        | _ => rfl
      have hco := coarse_waiter (n := n) (s := f.m) (fault := fault) hsite (by rw [hen]; rfl) (fun _ x hx => by
        obtain ⟨r, hop, _⟩ := hdone x hx; rw [hop]; rfl)
      rw [hs] at hco
      cases hco
      have hwhole : Whole .feed fault pos (clearInUse (f.m.c.pk p)) (f.buf p) (marksOf .feed) := by
        refine whole (by rw [hent]; exact hen) (fun _ _ _ h => by rcases h with h | h <;> cases h) ?_ ?_
        · intro w hw
          cases hx : f.m.c.pk p with
          | waitable y => rw [hx] at hw; cases hw; exact reach_reg hr p w hx
          | _ => rw [hx] at hw; cases hw
        · intro _ s hs
          cases hx : f.m.c.pk p with
          | socket x => rw [hx] at hs; cases hs; exact ⟨rfl, hdone x hx⟩
          | _ => rw [hx] at hs; cases hs
      have := real_section (who := .waiter) (k := .feed) (p := p) (fault := fault) hf1 hq.sec hq.written (.inr rfl) hsite (fun _ => rfl)
        (by show entry .feed ((setPk f.m.c p (clearInUse (f.m.c.pk p))).pk p) = some pos; rw [hx1, hent]; exact hen)
        (by show Whole .feed fault pos ((setPk f.m.c p (clearInUse (f.m.c.pk p))).pk p) (f.buf p) _; rw [hx1]; exact hwhole)
      dsimp only at this
      rw [adv_waiter, hx1, hat, setPk_setPk] at this
      exact this
  · have hun : untaken f = false := by
      unfold untaken
      split
      · rename_i w p b hph; exact absurd ⟨w, p, b, hph⟩ hfd
      · rfl
    cases hl : locks f.m .waiter with
    | false =>
      refine real_plain hf hq ?_ (fun _ _ h => by cases h) hs
      show (!locks f.m .waiter && !untaken f) = true
      rw [hl, hun]; rfl
    | true =>
      unfold locks at hl
      cases hsite : site f.m .waiter with
      | none => rw [hsite] at hl; cases hl
      | some kp =>
        obtain ⟨k, p⟩ := kp
        rw [hsite] at hl
        dsimp only at hl
        obtain ⟨pos, hpos⟩ := Option.isSome_iff_exists.mp hl
        have hk : k = .upd := by
          rcases waiter_kind hsite with h | ⟨_, w, b, h⟩
          · exact h
          · exact absurd ⟨w, p, b, h⟩ hfd
        subst hk
        have hco := coarse_waiter (n := n) (fault := fault) hsite hl nofun
        rw [hs] at hco
        cases hco
        have hwhole : Whole .upd fault pos (f.m.c.pk p) (f.buf p) (marksOf .upd) := by
          refine whole hpos ?_ (fun w hw => reach_reg hr p w hw) nofun
          intro x flags hx hk hst
          cases fault with
          | none => exact .inl rfl
          | some e =>
            obtain ⟨m, c, ho⟩ := he .upd p x flags hsite hk hx hst
            exact .inr ((quiet_buf hf hq.written hx).1 m c ho)
        have := real_section hf hq.sec hq.written (.inl hq.taken) hsite nofun hpos hwhole
        rw [adv_waiter] at this
        exact this

theorem real_callback {n f tr p s' o} (hf : FReach n FAny f tr) (hq : Quiet f)
    (hs : step n f.m (.callback p) = some (s', o)) : Realized n s' (o :: tr) := by
  have hab := quiet_abs hq
  have hr := (refine_any hf).1
  rw [hab] at hr
  have hc : p ∈ f.m.cb ∧ ∃ w, f.m.c.pk p = .waitable w := by
    simp only [step] at hs
    split at hs
    · rename_i w hw
      split at hs
      · rename_i hc; exact ⟨hc, w, hw⟩
      · cases hs
    · cases hs
  obtain ⟨hc, w, hw⟩ := hc
  have hpos : entry .cb (f.m.c.pk p) = some .cunregister := by rw [hw]; rfl
  have hco := coarse_callback (n := n) hc (by rw [hpos]; rfl)
  rw [hs] at hco
  cases hco
  have hsite : site f.m (.callback p) = some (.cb, p) := if_pos hc
  have := real_section (fault := none) hf hq.sec hq.written (.inl hq.taken) hsite nofun hpos
    (whole hpos (fun _ _ _ h => by rcases h with h | h <;> cases h) (fun w hw => reach_reg hr p w hw) nofun)
  have hm : (atomic .cb none (f.m.c.pk p)).2.2 = .tau := by rw [hw]; rfl
  rw [hm] at this
  exact this

theorem real_complete {n f tr p r s' o} (hf : FReach n FAny f tr) (hq : Quiet f)
    (hs : step n f.m (.complete p r) = some (s', o)) : Realized n s' (o :: tr) := by
  have hs0 := hs
  simp only [step] at hs
  split at hs
  rotate_left
  · cases hs
  rename_i k hk
  split at hs
  rotate_left
  · cases hs
  rename_i mask cancelling hop
  split at hs
  rotate_left
  · cases hs
  rename_i hposs
  have hwrite : fstep n f (.write p r) = some ({ f with buf := put f.buf p ((f.buf p).write r), written := put f.written p (some r) }, none) := by
    show (match f.m.c.pk p with | .socket s => _ | _ => none) = _
    rw [hk]
    dsimp only
    rw [hop]
    dsimp only
    rw [if_pos ⟨by rw [hq.written], hposs⟩]
  have hf1 : FReach n FAny _ tr := .step hf trivial hwrite
  have hstep : fstep n { f with buf := put f.buf p ((f.buf p).write r), written := put f.written p (some r) } (.plain (.complete p r)) =
      some ({ f with m := s', buf := put f.buf p ((f.buf p).write r), written := put (put f.written p (some r)) p none }, some o) := by
    show (if decide (put f.written p (some r) p = some r) = true then _ else none) = _
    rw [if_pos (decide_eq_true (put_self _ _ _))]
    show (step n f.m (.complete p r)).map _ = _
    rw [hs0]; rfl
  refine ⟨_, .step hf1 trivial hstep, ⟨hq.sec, hq.taken, ?_⟩, rfl⟩
  show put (put f.written p (some r)) p none = _
  rw [put_put, hq.written]
  funext q
  unfold put
  split <;> rfl

/-- Every behaviour of the coarse machine without late failures is one of the fine-grained machine. -/
theorem realize {n P s tr} (hP : ∀ s a, P s a → Early s a) (h : Reach n P s tr) : Realized n s tr := by
  induction h with
  | init => exact ⟨init, .init, ⟨rfl, rfl, rfl⟩, rfl⟩
  | @step s tr a s' o _ hp hs ih =>
    obtain ⟨f, hf, hq, rfl⟩ := ih
    have he := hP _ _ hp
    cases a with
    | go t fault => exact real_go hf hq he hs
    | wait fault => exact real_wait hf hq he hs
    | callback p => exact real_callback hf hq hs
    | complete p r => exact real_complete hf hq hs
    | callbackPost p fault =>
      refine real_plain hf hq ?_ (fun _ _ h => by cases h) hs
      have hm : p ∈ f.m.cbPost := by
        simp only [step] at hs
        split at hs
        · assumption
        · cases hs
      show decide (leaving f p < _) = true
      have : leaving f p = 0 := by unfold leaving; rw [hq.sec]
      rw [this]
      exact decide_eq_true (List.count_pos_iff.mpr hm)
    | _ => exact real_plain hf hq rfl (fun _ _ h => by cases h) hs

end Polling.IocpF
