import Verif.Proof.HandTimed
import Verif.Props.C09Machine

/-! Empty-handed waits are paid for by notifications: epoll. -/

namespace Polling.EpollM
open Epoll Spec

/-- What is seen of a step. -/
def handOf : Act × Obs EventExtra → Option Hand
  | (.notifyCas, _) => some .notify
  | (.waitBegin timeout _, _) => some (.wait timeout.isSome)
  | (_, .waitOk n _) => some (.back n)
  | _ => none

/-- The same with the times. -/
def handT : Act × Obs EventExtra → Option HandT
  | (.notifyCas, _) => some .notify
  | (.waitBegin timeout _, _) => some (.wait (timeout.map Duration.ns))
  | (.tick dt, _) => some (.pass dt)
  | (_, .waitOk n _) => some (.back n)
  | _ => none

/-- What the OS can be asked to wait for: `epoll_wait` takes an `i32` of milliseconds, a timerfd has no limit. -/
def most (c : Cfg) : Option Nat := if c.hasTimer then none else some 2147483647000000

theorem runs_reach {c P s l} (h : Runs (fun s => ∃ user, s = init c user) (step c) P s l) : Reach c s (l.map Prod.snd) := by
  induction h with
  | init hi => obtain ⟨u, rfl⟩ := hi; exact .init u
  | step _ _ hs ih => exact .step ih hs

/-- There is something to wake a `wait` up. -/
def pend (n : Nat) : Nat := if n > 0 then 1 else 0

/-- The notification that will be, or was, taken. -/
def due (b : Bool) (n : Nat) : Phase → Nat
  | .clearing _ _ evs => if b = false ∧ visible evs = [] then 1 else pend n
  | .cleared _ _ evs | .rearmed _ _ evs => (if b = false ∧ visible evs = [] then 1 else 0) + pend n
  | _ => pend n

/-- Empty-handed returns `E`, notifications `N`; `b`: the `wait` in progress may come back with nothing. -/
def Pay (b : Bool) (E N : Nat) (s : S) : Prop := E + due b s.k.count s.phase + s.inflight ≤ N

theorem pend_le_due (b n ph) (h : ¬ ∃ dl cap evs, ph = Phase.clearing dl cap evs) : pend n ≤ due b n ph := by
  unfold due; split
  · exact absurd ⟨_, _, _, rfl⟩ h
  · omega
  · omega
  · omega

theorem Pay.kern {b E N s} (h : Pay b E N s) {k : Kern} (hk : k.count = s.k.count) : Pay b E N { s with k } := by
  unfold Pay; simp only [hk]; exact h

theorem Pay.fail {b E N} {s s' : S} {dl cap e o} (h : Pay b E N s) (hc : ¬ ∃ dl cap evs, s.phase = .clearing dl cap evs)
    (heq : waitFail s dl cap e = (s', o)) : Pay b E N s' := by
  have := pend_le_due b s.k.count s.phase hc
  unfold Pay at *
  unfold waitFail at heq
  split at heq
  · cases heq; simp only [due]; omega
  · cases heq; simp only [due]; omega

theorem Pay.mono {b b' E N s} (h : Pay b E N s) (hb : b = true → b' = true) : Pay b' E N s := by
  have : due b' s.k.count s.phase ≤ due b s.k.count s.phase := by
    cases b <;> cases b'
    · exact Nat.le_refl _
    · unfold due pend; repeat' split
      all_goals first | omega | simp_all
    · cases hb rfl
    · exact Nat.le_refl _
  unfold Pay at *; omega

def newN (a : Act) (N : Nat) : Nat := match a with | .notifyCas => N + 1 | _ => N
def newE (b : Bool) (o : Obs EventExtra) (E : Nat) : Nat := match o with | .waitOk 0 _ => E + (if b then 0 else 1) | _ => E

theorem newE_fail {s s' : S} {b dl cap e o E} (heq : waitFail s dl cap e = (s', o)) : newE b o E = E := by
  unfold waitFail at heq
  split at heq <;> cases heq <;> rfl

theorem Pay.step {c : Cfg} {s s' : S} {b : Bool} {E N : Nat} {a : Act} {o : Obs EventExtra} (h : Pay b E N s) (hs : EpollM.step c s a = some (s', o))
    (hret : ∀ dl cap to t0, a = .epollReturn → s.phase = .polling dl cap to t0 → b = false → visible (harvest c s.k cap).1 = [] → s.k.count > 0) :
    Pay b (newE b o E) (newN a N) s' := by
  have mod : ∀ {fault x ev mode r k}, EpollM.modify c fault s.k x ev mode = (r, k) → k.count = s.k.count := by
    intro fault x ev mode r k h
    rcases ctlMod_cases h with ⟨_, _, rfl⟩ | ⟨_, rfl⟩
    · rw [link_eq]; rfl
    · rfl
  have hp : E + due b s.k.count s.phase + s.inflight ≤ N := h
  cases a with
  | add fd ev mode fault =>
    simp only [EpollM.step] at hs
    split at hs
    · cases hs
    · split at hs
      · cases hs
      · split at hs
        · cases hs; exact h
        · rcases hm : EpollM.add c fault s.k fd ev mode with ⟨r, k⟩
          have hk : k.count = s.k.count := by
            rcases ctlAdd_cases hm with ⟨_, _, rfl⟩ | ⟨_, rfl⟩
            · rw [link_eq]; rfl
            · rfl
          rw [hm] at hs
          cases r <;> (cases hs; exact h.kern hk)
  | modify fd ev mode fault =>
    simp only [EpollM.step] at hs
    split at hs
    · cases hs
    · split at hs
      · cases hs
      · split at hs
        · cases hs; exact h
        · rcases hm : EpollM.modify c fault s.k fd ev mode with ⟨r, k⟩
          rw [hm] at hs
          cases r <;> (cases hs; exact h.kern (mod hm))
  | delete fd fault =>
    simp only [EpollM.step] at hs
    split at hs
    · cases hs
    · rcases hm : EpollM.delete fault s.k fd with ⟨r, k⟩
      have hk : k.count = s.k.count := by
        rcases ctlDel_cases hm with ⟨_, _, rfl⟩ | ⟨_, rfl⟩ <;> rfl
      rw [hm] at hs
      cases r <;> (cases hs; exact h.kern hk)
  | notifyCas =>
    simp only [EpollM.step] at hs
    split at hs
    · cases hs; show E + due b s.k.count s.phase + _ ≤ N + 1; (try simp only); omega
    · split at hs
      · cases hs; show E + due b s.k.count s.phase + _ ≤ N + 1; (try simp only); omega
      · cases hs
  | notifyWrite =>
    simp only [EpollM.step] at hs
    split at hs
    · cases hs
      unfold Pay
      rw [link_eq]
      simp only
      have h1 : ∀ n, pend n ≤ 1 := by intro n; unfold pend; split <;> omega
      have : due (b) (s.k.count + 1) s.phase ≤ due (b) s.k.count s.phase + 1 := by
        have := h1 (s.k.count + 1)
        unfold due; split
        · split <;> omega
        · omega
        · omega
        · omega
      show E + due (b) (s.k.count + 1) s.phase + (s.inflight - 1) ≤ N
      omega
    · cases hs
  | waitBegin timeout cap =>
    simp only [EpollM.step] at hs
    split at hs
    · next hph =>
      split at hs
      · cases hs
      · cases hs
        rw [hph] at hp
        exact hp
    · cases hs
  | waitBusy =>
    simp only [EpollM.step] at hs
    repeat' split at hs
    all_goals first | (cases hs; done) | (cases hs; exact h)
  | compute =>
    simp only [EpollM.step] at hs
    split at hs
    · next hph =>
      cases hs
      rw [hph] at hp
      exact hp
    · cases hs
  | settime fault =>
    simp only [EpollM.step] at hs
    split at hs
    · next hph =>
      rw [hph] at hp
      split at hs
      · split at hs
        · have hs := Option.some.inj hs
          rw [newE_fail hs]; exact h.fail (by simp [hph]) hs
        · cases hs; exact hp
      · cases hs; exact hp
    · cases hs
  | armTimer fault =>
    simp only [EpollM.step] at hs
    split at hs
    · next hph =>
      rw [hph] at hp
      split at hs
      · rcases hm : EpollM.modify c fault s.k c.timerFd (Event.onlyReadable NOTIFY_KEY) .oneshot with ⟨r, k⟩
        rw [hm] at hs
        cases r with
        | ok => cases hs; show E + _ + _ ≤ N; simp only [mod hm]; exact hp
        | err e =>
          have hs := Option.some.inj hs
          rw [newE_fail hs]; exact (h.kern (mod hm)).fail (by simp [hph]) hs
      · cases hs; exact hp
    · cases hs
  | epollReturn =>
    simp only [EpollM.step] at hs
    split at hs
    · next dl cap timeout t0 hph =>
      rw [hph] at hp
      split at hs
      · cases hs
        have hk : (harvest c s.k cap).2.count = s.k.count := rfl
        show E + due (b) (harvest c s.k cap).2.count (.clearing dl cap (harvest c s.k cap).1) + s.inflight ≤ N
        rw [hk]
        simp only [due] at hp ⊢
        split
        · next hx =>
          have hc := hret dl cap timeout t0 rfl hph hx.1 hx.2
          simp only [pend, if_pos hc] at hp
          omega
        · omega
      · cases hs
    · cases hs
  | epollFail e =>
    simp only [EpollM.step] at hs
    split at hs
    · next hph =>
      rw [hph] at hp
      have hs := Option.some.inj hs
      rw [newE_fail hs]; exact h.fail (by simp [hph]) hs
    · cases hs
  | clearRead =>
    simp only [EpollM.step] at hs
    split at hs
    · next dl cap evs hph =>
      rw [hph] at hp
      split at hs
      · cases hs
        have : pend (s.k.count - 1024) ≤ pend s.k.count := by unfold pend; split <;> split <;> omega
        show E + due (b) (s.k.count - 1024) s.phase + s.inflight ≤ N
        rw [hph]
        simp only [due] at hp ⊢
        by_cases hx : b = false ∧ visible evs = []
        · rw [if_pos hx] at hp ⊢; exact hp
        · rw [if_neg hx] at hp ⊢; omega
      · cases hs
        have : pend 0 = 0 := rfl
        show E + due (b) 0 (.cleared dl cap evs) + s.inflight ≤ N
        simp only [due, this] at hp ⊢
        by_cases hx : b = false ∧ visible evs = []
        · rw [if_pos hx] at hp ⊢; exact hp
        · rw [if_neg hx] at hp ⊢; omega
    · cases hs
  | rearm fault =>
    simp only [EpollM.step] at hs
    split at hs
    · next dl cap evs hph =>
      rw [hph] at hp
      rcases hm : EpollM.modify c fault s.k c.notifFd (Event.onlyReadable NOTIFY_KEY) .oneshot with ⟨r, k⟩
      rw [hm] at hs
      cases r with
      | ok => cases hs; show E + _ + _ ≤ N; simp only [mod hm]; exact hp
      | err e =>
        have hs := Option.some.inj hs
        rw [newE_fail hs]; exact (h.kern (mod hm)).fail (by simp [hph]) hs
    · cases hs
  | finish =>
    simp only [EpollM.step] at hs
    split at hs
    · next dl cap evs hph =>
      rw [hph] at hp
      cases hs
      simp only [due] at hp
      show newE b (.waitOk (visible evs).length _) E + pend s.k.count + s.inflight ≤ N
      cases hv : visible evs with
      | nil =>
        rw [hv] at hp
        simp only [List.length_nil, newE]
        cases b <;> simp at hp ⊢ <;> omega
      | cons x xs =>
        rw [hv] at hp
        simp only [List.length_cons, newE]
        simp at hp
        omega
    · cases hs
  | setReady fd flags key =>
    simp only [EpollM.step] at hs
    split at hs
    · cases hs
    · split at hs
      · cases hs
      · cases hs
        refine h.kern ?_
        rw [link_eq]
  | tick dt =>
    simp only [EpollM.step] at hs
    split at hs
    · cases hs; exact h.kern rfl
    · split at hs
      · cases hs
        refine h.kern ?_
        split
        · rw [link_eq]
        · rfl
      · cases hs; exact h.kern rfl

/-- The time a step takes. -/
def passed : Act → Nat
  | .tick dt => dt
  | _ => 0

theorem step_time {c : Cfg} {s s' : S} {a : Act} {o : Obs EventExtra} (hs : EpollM.step c s a = some (s', o)) :
    s'.k.time = s.k.time + passed a := by
  have fl : ∀ {s s' : S} {dl cap e o}, waitFail s dl cap e = (s', o) → s'.k.time = s.k.time := by
    intro s s' dl cap e o h
    unfold waitFail at h
    split at h <;> cases h <;> rfl
  cases a with
  | add fd ev mode fault =>
    simp only [EpollM.step] at hs
    split at hs; · cases hs
    split at hs; · cases hs
    split at hs; · cases hs; rfl
    split at hs <;> next heq => cases hs; exact (add_timer heq).2.2
  | modify fd ev mode fault =>
    simp only [EpollM.step] at hs
    split at hs; · cases hs
    split at hs; · cases hs
    split at hs; · cases hs; rfl
    split at hs <;> next heq => cases hs; exact (modify_timer heq).2.2
  | delete fd fault =>
    simp only [EpollM.step] at hs
    split at hs; · cases hs
    split at hs <;> next heq => cases hs; exact (delete_timer heq).2.2
  | notifyCas =>
    simp only [EpollM.step] at hs
    repeat' split at hs
    all_goals first | (cases hs; done) | (cases hs; rfl)
  | notifyWrite =>
    simp only [EpollM.step] at hs
    split at hs <;> cases hs
    dsimp only; rw [link_eq]; rfl
  | waitBegin timeout cap =>
    simp only [EpollM.step] at hs
    repeat' split at hs
    all_goals first | (cases hs; done) | (cases hs; rfl)
  | waitBusy =>
    simp only [EpollM.step] at hs
    split at hs <;> cases hs
    rfl
  | compute =>
    simp only [EpollM.step] at hs
    split at hs <;> cases hs
    rfl
  | settime fault =>
    simp only [EpollM.step] at hs
    split at hs
    · split at hs
      · split at hs
        · exact fl (Option.some.inj hs)
        · cases hs; rfl
      · cases hs; rfl
    · cases hs
  | armTimer fault =>
    simp only [EpollM.step] at hs
    split at hs
    · split at hs
      · split at hs <;> next heq =>
          have := (modify_timer heq).2.2
          first
            | (cases hs; exact this)
            | exact (fl (Option.some.inj hs)).trans this
      · cases hs; rfl
    · cases hs
  | epollReturn =>
    simp only [EpollM.step] at hs
    repeat' split at hs
    all_goals first | (cases hs; done) | (cases hs; rfl)
  | epollFail e =>
    simp only [EpollM.step] at hs
    split at hs
    · exact fl (Option.some.inj hs)
    · cases hs
  | clearRead =>
    simp only [EpollM.step] at hs
    repeat' split at hs
    all_goals first | (cases hs; done) | (cases hs; rfl)
  | rearm fault =>
    simp only [EpollM.step] at hs
    split at hs
    · split at hs <;> next heq =>
        have := (modify_timer heq).2.2
        first
          | (cases hs; exact this)
          | exact (fl (Option.some.inj hs)).trans this
    · cases hs
  | finish =>
    simp only [EpollM.step] at hs
    split at hs <;> cases hs
    rfl
  | setReady fd flags key =>
    simp only [EpollM.step] at hs
    split at hs; · cases hs
    split at hs; · cases hs
    cases hs
    dsimp only; rw [link_eq]; rfl
  | tick dt =>
    simp only [EpollM.step] at hs
    split at hs
    · cases hs; rfl
    · split at hs <;> cases hs
      · dsimp only
        split
        · rw [link_eq]; rfl
        · rfl
      · rfl

/-- Outside a `wait` only `waitBegin` begins one. -/
theorem step_idle {c : Cfg} {s s' : S} {a : Act} {o : Obs EventExtra} (hs : EpollM.step c s a = some (s', o)) (hi : s.phase = .idle)
    (ha : ∀ t cap, a ≠ .waitBegin t cap) : s'.phase = .idle ∧ ∀ n evs, o ≠ .waitOk n evs := by
  cases a <;> simp only [EpollM.step, hi] at hs
  case waitBegin t cap => exact (ha t cap rfl).elim
  all_goals repeat' split at hs
  all_goals first | (cases hs; done) | (cases hs; exact ⟨by first | rfl | exact hi, by intro n evs h; cases h⟩)

/-- The end of a `wait`. -/
theorem step_back {c : Cfg} {s s' : S} {a : Act} {n evs} (hs : EpollM.step c s a = some (s', .waitOk n evs)) : a = .finish ∧ s'.phase = .idle := by
  have fl : ∀ {s s' : S} {dl cap e}, waitFail s dl cap e = (s', .waitOk n evs) → False := by
    intro s s' dl cap e h
    unfold waitFail at h
    split at h <;> cases h
  cases a <;> simp only [EpollM.step] at hs
  case finish => split at hs <;> cases hs; exact ⟨rfl, rfl⟩
  all_goals exfalso
  all_goals repeat' split at hs
  all_goals first | (cases hs; done) | exact fl (Option.some.inj hs)

theorem step_err {c : Cfg} {s s' : S} {a : Act} {e} (hs : EpollM.step c s a = some (s', .waitErr e)) : s'.phase = .idle := by
  have fl : ∀ {s s' : S} {dl cap e'}, waitFail s dl cap e' = (s', .waitErr e) → s'.phase = .idle := by
    intro s s' dl cap e h
    unfold waitFail at h
    split at h <;> cases h; rfl
  cases a <;> simp only [EpollM.step] at hs
  all_goals repeat' split at hs
  all_goals first | (cases hs; done) | exact fl (Option.some.inj hs)

structure HInv (c : Cfg) (s : S) (l : List HandT) : Prop where
  since : s.phase = .idle ∨ ∃ b t, timeoutOf l = Option.map Duration.ns t ∧ b + spent l = s.k.time ∧
    Since b (t.bind fun t => instantCheckedAdd unixMaxNs b t) s
  pay : Pay (timeOver (most c) l) (earlyBacks (most c) l) (notifiesT l) s

theorem HInv.step {c : Cfg} (hok : c.Ok) {s s' : S} {tr : List (Obs EventExtra)} {l : List HandT} {a : Act} {o : Obs EventExtra}
    (hr : Reach c s tr) (h : HInv c s l) (hs : EpollM.step c s a = some (s', o)) : HInv c s' ((handT (a, o)).toList ++ l) := by
  have hp := h.pay.step hs (by
    intro dl cap to t0 ha hph hb hv
    subst ha
    obtain ⟨evs, rfl⟩ : ∃ evs, o = .deliver evs := by
      simp only [EpollM.step, hph] at hs
      split at hs <;> cases hs
      exact ⟨_, rfl⟩
    obtain ⟨_, _, cap', _, _, hph', _, _, hevs⟩ := deliver_inv hs
    rw [hph] at hph'; cases hph'
    have hv' := visible_user (reach_kinv hok hr) cap
    rw [hv, ← hevs] at hv'
    rcases C12.epoll_wait_ends_by c hok s s' tr hr _ evs hs with h1 | h1 | ⟨d, cap', to', t0', hph', h1⟩
    · exact absurd (List.map_eq_nil_iff.1 hv'.symm) h1
    · exact h1
    · exfalso
      rw [hph] at hph'; cases hph'
      rcases h.since with hi | ⟨b, t, ht, hbs, hS⟩
      · rw [hph] at hi; cases hi
      · unfold Since at hS
        rw [hph] at hS
        obtain ⟨_, hdl, ht0⟩ := hS
        cases t with
        | none => cases hdl
        | some t =>
          obtain ⟨he, _⟩ := C09.add_le hdl.symm
          unfold timeOver most at hb
          rw [ht] at hb
          rcases h1 with h1 | ⟨h1, h2⟩
          · simp only [Option.map_some, Bool.or_eq_false_iff, decide_eq_false_iff_not] at hb
            exact hb.1 (by omega)
          · simp only [Option.map_some, Bool.or_eq_false_iff, h1, if_false, Bool.false_eq_true, decide_eq_false_iff_not] at hb
            exact hb.2 (by omega))
  have htm := step_time hs
  -- the log
  by_cases hw : ∃ t cap, a = .waitBegin t cap
  · obtain ⟨t, cap, rfl⟩ := hw
    simp only [EpollM.step] at hs
    split at hs
    · split at hs <;> cases hs
      refine ⟨.inr ⟨s.k.time, t, rfl, rfl, Nat.le_refl _, rfl⟩, ?_⟩
      have e2 : notifiesT (.wait (t.map Duration.ns) :: l) = notifiesT l := by simp [notifiesT]
      show Pay _ (earlyBacks (most c) l) (notifiesT (.wait (t.map Duration.ns) :: l)) _
      rw [e2]
      exact hp
    · cases hs
  · have hw' : ∀ t cap, a ≠ .waitBegin t cap := fun t cap e => hw ⟨t, cap, e⟩
    have key : timeoutOf ((handT (a, o)).toList ++ l) = timeoutOf l ∧ (spent ((handT (a, o)).toList ++ l) = spent l + passed a) ∧
        Pay (timeOver (most c) ((handT (a, o)).toList ++ l)) (earlyBacks (most c) ((handT (a, o)).toList ++ l)) (notifiesT ((handT (a, o)).toList ++ l)) s' := by
      by_cases hn : ∃ n evs, o = .waitOk n evs
      · obtain ⟨n, evs, rfl⟩ := hn
        obtain ⟨rfl, _⟩ := step_back hs
        refine ⟨rfl, rfl, ?_⟩
        have e2 : notifiesT (.back n :: l) = notifiesT l := by simp [notifiesT]
        show Pay (timeOver (most c) l) (earlyBacks (most c) (.back n :: l)) (notifiesT (.back n :: l)) s'
        rw [e2]
        cases n <;> exact hp
      · have eE : newE (timeOver (most c) l) o (earlyBacks (most c) l) = earlyBacks (most c) l := by
          cases o <;> first | rfl | exact (hn ⟨_, _, rfl⟩).elim
        rw [eE] at hp
        cases a with
        | waitBegin t cap => exact (hw' t cap rfl).elim
        | notifyCas =>
          have e2 : notifiesT (.notify :: l) = notifiesT l + 1 := by simp [notifiesT]
          refine ⟨rfl, rfl, ?_⟩
          show Pay (timeOver (most c) l) (earlyBacks (most c) l) (notifiesT (.notify :: l)) s'
          rw [e2]; exact hp
        | tick dt =>
          have e2 : notifiesT (.pass dt :: l) = notifiesT l := by simp [notifiesT]
          refine ⟨rfl, rfl, ?_⟩
          show Pay (timeOver (most c) (.pass dt :: l)) (earlyBacks (most c) l) (notifiesT (.pass dt :: l)) s'
          rw [e2]; exact hp.mono timeOver_pass
        | _ =>
          have e : ∀ a, (handT (a, o)).toList = [] → timeoutOf ((handT (a, o)).toList ++ l) = timeoutOf l ∧ spent ((handT (a, o)).toList ++ l) = spent l := by
            intro a h; rw [h]; exact ⟨rfl, rfl⟩
          cases o <;> first | exact (hn ⟨_, _, rfl⟩).elim | exact ⟨rfl, rfl, hp⟩
    obtain ⟨k1, k2, k3⟩ := key
    refine ⟨?_, k3⟩
    rw [k1, k2, htm]
    rcases h.since with hi | ⟨b, t, ht, hbs, hS⟩
    · exact .inl (step_idle hs hi hw').1
    · by_cases hn : ∃ n evs, o = .waitOk n evs
      · obtain ⟨n, evs, rfl⟩ := hn
        exact .inl (step_back hs).2
      · by_cases he : ∃ e, o = .waitErr e
        · obtain ⟨e, rfl⟩ := he
          exact .inl (step_err hs)
        · exact .inr ⟨b, t, ht, by rw [← hbs, Nat.add_assoc], step_since hS hs (fun n evs e => hn ⟨n, evs, e⟩) (fun e h => he ⟨e, h⟩)⟩

theorem reach_timed {c : Cfg} (hok : c.Ok) {P s l} (h : Runs (fun s => ∃ user, s = init c user) (step c) P s l) : HInv c s (l.filterMap handT) := by
  induction h with
  | @init s hi =>
    obtain ⟨u, rfl⟩ := hi
    have : (init c u).k.count = 0 ∧ (init c u).inflight = 0 ∧ (init c u).phase = .idle := by
      unfold init
      refine ⟨?_, rfl, rfl⟩
      simp only
      have : ∀ k fd, (EpollM.add c none k fd (Event.onlyReadable NOTIFY_KEY) .oneshot).2.count = k.count := by
        intro k fd
        rcases ctlAdd_cases (Prod.eta (EpollM.add c none k fd (Event.onlyReadable NOTIFY_KEY) .oneshot)).symm with ⟨_, _, h⟩ | ⟨_, h⟩
        · rw [h, link_eq]; rfl
        · rw [h]
      rw [this]
      split
      · rcases ctlAdd_cases (Prod.eta (EpollM.add c none ⟨fun _ => none, [], u, 0, 0, none, false⟩ c.timerFd (Event.none NOTIFY_KEY) .oneshot)).symm with ⟨_, _, h⟩ | ⟨_, h⟩
        · rw [h, link_eq]; rfl
        · rw [h]
      · rfl
    refine ⟨.inl this.2.2, ?_⟩
    unfold Pay
    rw [this.1, this.2.1, this.2.2]
    simp [due, pend, earlyBacks, notifiesT]
  | @step s l a s' o hr _ hs ih =>
    have := ih.step hok (runs_reach hr) hs
    have e : ((a, o) :: l).filterMap handT = (handT (a, o)).toList ++ l.filterMap handT := by
      rw [List.filterMap_cons]; cases handT (a, o) <;> rfl
    rw [e]; exact this

/-- The log with times says more than the one without. -/
theorem hand_plain {c P s l} (h : Runs (fun s => ∃ user, s = init c user) (step c) P s l) : l.filterMap handOf = (l.filterMap handT).filterMap HandT.plain := by
  induction h with
  | init => rfl
  | @step s l a s' o _ _ hs ih =>
    rw [List.filterMap_cons, List.filterMap_cons, ih]
    cases a <;> cases o <;> first
      | rfl
      | (simp [handOf, handT, HandT.plain]; done)
      | (simp only [EpollM.step] at hs; repeat' split at hs
         all_goals cases hs)

end Polling.EpollM
