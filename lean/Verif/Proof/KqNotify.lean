import Verif.Proof.KqInv

/-! Notifications on kqueue. -/

namespace Polling.KqM
open Kqueue KqSpec

/-- The OS calls of the notifier succeed: the trigger or the write of `notify`, and the re-registration in `wait`. -/
def Works (s : S) (t : Tid) (a : Act) : Prop :=
  match s.pc t, a with
  | .submit .notify _ _, .change fault => fault = none
  | .submit .notify _ _, .kfail _ => False
  | .submit (.rearm _ _ _) _ _, .change fault => fault = none
  | .submit (.rearm _ _ _) _ _, .kfail _ => False
  | .nWrite, .write fail => fail = false
  | _, _ => True

/-- The knote of the pair of sockets. -/
def pairKnote : Knote := ⟨keyToU64 NOTIFY_KEY, true, false⟩

/-! What can be said without assumptions about failures. -/

/-- The change of a registration call does not touch the poller's own filters. -/
theorem call_filter_ne {c : Cfg} {call : Call} {ev : KEvent} {todo done : List KEvent} {f : Filter}
    (h : PcOk c (.submit (.call call) (ev :: todo) done)) (hf : c.internal f = true) : f ≠ ev.filter := by
  rintro rfl
  have := (changes_filter h.1 (head_change h)).1
  rw [this] at hf; cases hf

/-- On an `EVFILT_USER` notifier the knote is always there and is not one-shot. -/
def UserKnote (k : Kern) : Prop :=
  ∃ n, k.knotes (.user 0) = some n ∧ n.oneshot = false ∧ n.udata = keyToU64 NOTIFY_KEY

theorem userInternal {c : Cfg} (hu : c.user = true) : c.internal (.user 0) = true := by simp [Cfg.internal, hu]
theorem readInternal {c : Cfg} (hu : c.user = false) : c.internal (.read c.notifFd) = true := by simp [Cfg.internal, hu]

/-- The changes of `notify` are triggers. -/
theorem notify_change {c : Cfg} {ev : KEvent} {todo done : List KEvent} (h : PcOk c (.submit .notify (ev :: todo) done)) :
    ev = userChange true ∧ todo = [] ∧ done = [] := by
  obtain ⟨_, pre, errs, h2, h3, h4⟩ := h
  simp only [changesOf] at h2
  cases pre with
  | nil =>
    simp only [List.nil_append, List.cons.injEq] at h2
    exact ⟨h2.1.symm, h2.2.symm, by rw [h4]; rfl⟩
  | cons x pre => simp at h2

theorem knote_after {c fault k ev errno k'} (hr : Reg c fault k ev errno k') (hf : ev.flags.add = true) (h0 : fault = none) :
    k'.knotes ev.filter = some (added c (k.knotes ev.filter) ev) ∧ errno = 0 ∧
      (ev.filter ∈ k'.queue ↔ ev.filter ∈ k.queue ∨ fires c k ev = true) := by
  cases hr with
  | fault h => rw [h0] at h; cases h
  | add _ _ hfire => rw [activate_knotes, activate_mem]; simp [setKnote, hfire]
  | addIdle _ _ hfire => simp [setKnote, hfire]
  | missing _ h => rw [hf] at h; cases h
  | delete _ h => rw [hf] at h; cases h
  | nothing _ h => rw [hf] at h; cases h

theorem userKnote_reg {c fault k errno k'} {ev : KEvent} (hev : ev = userChange true) (hr : Reg c fault k ev errno k')
    (h : UserKnote k) : UserKnote k' := by
  cases hfl : fault with
  | some e =>
    cases hr with
    | fault _ => exact h
    | _ => simp_all
  | none =>
    subst hev
    have hk := (knote_after hr rfl hfl).1
    obtain ⟨n, hn, ho, hd⟩ := h
    have hfil : (userChange true).filter = .user 0 := rfl
    rw [hfil, hn] at hk
    refine ⟨_, hk, ?_, ?_⟩
    · unfold added; split
      · split
        · next h1 _ => injection h1 with h1; subst h1; exact ho
        · rfl
      · rfl
    · unfold added; split
      · split <;> rfl
      · rfl

theorem next_userKnote {c s t a s' o} (hu : c.user = true) (hn : Next c s t a s' o) (hki : KI c s.k) (hp : ∀ u, PcOk c (s.pc u))
    (h : UserKnote s.k) : UserKnote s'.k := by
  have ht := hp t
  cases hn with
  | @change fault w ev todo done errno k hpc hf hr =>
    rw [hpc] at ht
    cases w with
    | call call =>
      obtain ⟨n, h1, h2⟩ := h
      exact ⟨n, by rw [(reg_other (register_reg hr) (call_filter_ne ht (userInternal hu))).1]; exact h1, h2⟩
    | notify => exact userKnote_reg (notify_change ht).1 (register_reg hr) h
    | rearm timed cap evs => have := ht.1.1; rw [hu] at this; cases this
  | kevent hpc hh hc =>
    obtain ⟨_, _, _, _, _, hb⟩ := harvest_batch hki.nodup hh
    obtain ⟨n, h1, h2, h3⟩ := h
    refine ⟨n, ?_, h2, h3⟩
    simp only [hb.knotes, h1]
    split
    · simp [reported, Option.filter, h2]
    · rfl
  | write => unfold UserKnote; rw [activate_knotes]; exact h
  | raise => unfold UserKnote; rw [activate_knotes]; exact h
  | _ => exact h

theorem reach_userKnote {c P s tr} (hu : c.user = true) (h : Reach c P s tr) : UserKnote s.k := by
  induction h with
  | init cond =>
    unfold init
    rw [if_pos hu]
    have hr := register_reg (c := c) (fault := none) (k := ⟨fun _ => none, [], cond, 0⟩) (ev := userChange false) (Prod.eta _).symm
    have hk := (knote_after hr rfl rfl).1
    exact ⟨_, hk, rfl, rfl⟩
  | step hr _ hs ih => exact next_userKnote hu (step_next hs).2 (reach_ki hr) (reach_pcOk hr) ih

/-! The pair of sockets. -/

/-- Of the poller's own filters at most the read side is watched, in the way it was registered. -/
def PairKnote (c : Cfg) (k : Kern) : Prop :=
  (k.knotes (.read c.notifFd) = none ∨ k.knotes (.read c.notifFd) = some pairKnote) ∧ k.knotes (.write c.notifFd) = none

theorem rearm_change {c : Cfg} {timed cap evs} {ev : KEvent} {todo done : List KEvent}
    (h : PcOk c (.submit (.rearm timed cap evs) (ev :: todo) done)) :
    (ev.filter = .read c.notifFd ∧ ev.flags = changeFlags true .oneshot ∧ ev.udata = keyToU64 NOTIFY_KEY ∧
      ∃ x, todo = [x]) ∨
    (ev.filter = .write c.notifFd ∧ ev.flags = changeFlags false .oneshot ∧ todo = []) := by
  obtain ⟨_, pre, errs, h2, h3, h4⟩ := h
  simp only [changesOf, fdChanges] at h2
  match pre, h2 with
  | [], h2 =>
    simp only [List.nil_append, List.cons.injEq] at h2
    obtain ⟨rfl, rfl⟩ := h2
    exact .inl ⟨rfl, rfl, rfl, _, rfl⟩
  | [x], h2 =>
    simp only [List.singleton_append, List.cons.injEq] at h2
    obtain ⟨_, rfl, rfl⟩ := h2
    exact .inr ⟨rfl, rfl, rfl⟩
  | x :: y :: pre, h2 => simp at h2

theorem added_pair {c : Cfg} (hok : c.Ok) {old : Option Knote} (ho : old = none ∨ old = some pairKnote) {ev : KEvent}
    (h1 : ev.filter = .read c.notifFd) (h2 : ev.flags = changeFlags true .oneshot) (h3 : ev.udata = keyToU64 NOTIFY_KEY) :
    added c old ev = pairKnote := by
  have hc := (hok c.notifFd).1
  rcases ho with rfl | rfl
  · simp [added, h1, h2, h3, hc, pairKnote, changeFlags, modeToFlags]
  · simp [added, h1, h2, h3, hc, pairKnote, changeFlags, modeToFlags]

theorem pairKnote_rearm {c : Cfg} (hok : c.Ok) {timed cap evs} {ev : KEvent} {todo done : List KEvent} {fault k errno k'}
    (hp : PcOk c (.submit (.rearm timed cap evs) (ev :: todo) done)) (hr : Reg c fault k ev errno k')
    (h : PairKnote c k) : PairKnote c k' := by
  cases hfl : fault with
  | some e =>
    cases hr with
    | fault _ => exact h
    | _ => simp_all
  | none =>
    have hwr : ∀ fd, Filter.write fd ≠ Filter.read fd := by intro fd hc; cases hc
    have hrw : ∀ fd, Filter.read fd ≠ Filter.write fd := by intro fd hc; cases hc
    rcases rearm_change hp with ⟨h1, h2, h3, _⟩ | ⟨h1, h2, _⟩
    · have hk := (knote_after hr (by rw [h2]; rfl) hfl).1
      rw [h1] at hk
      rw [added_pair hok h.1 h1 h2 h3] at hk
      refine ⟨.inr hk, ?_⟩
      rw [(reg_other hr (f := .write c.notifFd) (by rw [h1]; exact hwr _)).1]
      exact h.2
    · refine ⟨?_, ?_⟩
      · rw [(reg_other hr (f := .read c.notifFd) (by rw [h1]; exact hrw _)).1]
        exact h.1
      · cases hr with
        | fault he => rw [hfl] at he; cases he
        | add _ ha => rw [h2] at ha; cases ha
        | addIdle _ ha => rw [h2] at ha; cases ha
        | missing => exact h.2
        | delete => simp [setKnote, h1]
        | nothing _ _ hd => rw [h2] at hd; cases hd

theorem next_pairKnote {c s t a s' o} (hok : c.Ok) (hu : c.user = false) (hn : Next c s t a s' o) (hki : KI c s.k)
    (hp : ∀ u, PcOk c (s.pc u)) (h : PairKnote c s.k) : PairKnote c s'.k := by
  have ht := hp t
  cases hn with
  | @change fault w ev todo done errno k hpc hf hr =>
    rw [hpc] at ht
    cases w with
    | call call =>
      have h1 := (reg_other (register_reg hr) (call_filter_ne ht (readInternal hu))).1
      have h2 := (reg_other (register_reg hr) (call_filter_ne ht (f := .write c.notifFd) (by simp [Cfg.internal, hu]))).1
      unfold PairKnote
      rw [h1, h2]; exact h
    | notify => have : c.user = true := ht.1; rw [hu] at this; cases this
    | rearm timed cap evs => exact pairKnote_rearm hok ht (register_reg hr) h
  | kevent hpc hh hc =>
    obtain ⟨_, _, _, _, _, hb⟩ := harvest_batch hki.nodup hh
    unfold PairKnote
    simp only [hb.knotes]
    refine ⟨?_, ?_⟩
    · split
      · left
        rcases h.1 with h1 | h1 <;> simp [h1, reported, Option.filter, pairKnote]
      · exact h.1
    · split
      · rw [h.2]; rfl
      · exact h.2
  | write => unfold PairKnote; rw [activate_knotes]; exact h
  | raise => unfold PairKnote; rw [activate_knotes]; exact h
  | _ => exact h

/-- The kernel after `Poller::new`. -/
theorem init_pair (c : Cfg) (hok : c.Ok) (hu : c.user = false) (cond) :
    PairKnote c (init c cond).k ∧ (init c cond).k.knotes (.read c.notifFd) = some pairKnote := by
  have hc := (hok c.notifFd).1
  unfold init PairKnote
  simp only [hu, Bool.false_eq_true, if_false, fdChanges, List.foldl, register, changeFlags, Event.onlyReadable, Event.new,
    modeToFlags]
  simp [setKnote, added, fires, ready, hu, pairKnote, hc]

theorem reach_pairKnote {c P s tr} (hok : c.Ok) (hu : c.user = false) (h : Reach c P s tr) : PairKnote c s.k := by
  induction h with
  | init cond => exact (init_pair c hok hu cond).1
  | step hr _ hs ih => exact next_pairKnote hok hu (step_next hs).2 (reach_ki hr) (reach_pcOk hr) ih

/-! Notifications are not lost. -/

/-- `notify` has set the flag but not yet signalled. -/
def pend : Pc → Bool
  | .nWrite => true
  | .submit .notify (_ :: _) _ => true
  | _ => false

/-- `notify` has signalled but not yet returned. -/
def atEnd : Pc → Bool
  | .submit .notify [] _ => true
  | _ => false

/-- `wait` has taken events and will return (or fail to re-register). -/
def post : Pc → Bool
  | .wClear _ _ _ | .wHas _ _ _ | .wFin _ | .submit (.rearm _ _ _) _ _ => true
  | _ => false

/-- `wait` has taken events and not yet re-registered the notifier. -/
def preArm : Pc → Bool
  | .wClear _ _ _ | .wHas _ _ _ | .submit (.rearm _ _ _) [_, _] _ => true
  | _ => false

/-- There is something for `kevent` to find. -/
def signal (c : Cfg) (k : Kern) : Prop := if c.user then .user 0 ∈ k.queue else k.chan > 0

/-- Re-registrations go well. -/
def RearmOk (s : S) : Prop := ∀ t timed cap evs todo done, s.pc t = .submit (.rearm timed cap evs) todo done → submitResult done = .ok

theorem submitResult_append (l : List KEvent) (ev : KEvent) (h : submitResult l = .ok)
    (he : ev.data = 0 ∨ ev.data = ENOENT) : submitResult (l ++ [ev]) = .ok := by
  induction l with
  | nil =>
    simp only [List.nil_append, submitResult]
    rcases he with he | he <;> simp [he]
  | cons x l ih =>
    simp only [List.cons_append, submitResult] at h ⊢
    split at h
    · cases h
    · next hc => rw [if_neg hc]; exact ih h

theorem reg_errno {c fault k ev errno k'} (h : Reg c fault k ev errno k') (hf : fault = none) : errno = 0 ∨ errno = ENOENT := by
  cases h <;> simp_all

theorem next_rearmOk {c s t a s' o} (hw : Works s t a) (hn : Next c s t a s' o) (h : RearmOk s) : RearmOk s' := by
  intro u timed cap evs todo done hpc
  have hu := h u timed cap evs
  by_cases hut : u = t
  · subst hut
    cases hn with
    | @change fault w ev todo' done' errno k hp hf hr =>
      dsimp only at hpc; rw [upd_self] at hpc
      injection hpc with h1 h2 h3
      subst h1 h2 h3
      unfold Works at hw; rw [hp] at hw
      refine submitResult_append _ _ (hu _ _ hp) ?_
      rcases reg_errno (register_reg hr) hw with rfl | rfl <;> simp [receipt]
    | @begin call => dsimp only at hpc; rw [upd_self] at hpc; cases call <;> cases hpc
    | wHas => dsimp only at hpc; rw [upd_self] at hpc; injection hpc with h1 h2 h3; rw [← h3]; rfl
    | kevent => dsimp only at hpc; rw [upd_self] at hpc; cases hcu : c.user <;> simp [hcu] at hpc
    | reject => exact hu _ _ hpc
    | panic0 => exact hu _ _ hpc
    | kevRetry => exact hu _ _ hpc
    | casSeen => exact hu _ _ hpc
    | waitBusy => exact hu _ _ hpc
    | read => exact hu _ _ hpc
    | raise => exact hu _ _ hpc
    | fall => exact hu _ _ hpc
    | _ => dsimp only at hpc; rw [upd_self] at hpc; cases hpc
  · cases hn <;> first | exact hu _ _ hpc | (dsimp only at hpc; rw [upd_other _ hut] at hpc; exact hu _ _ hpc)

theorem reach_rearmOk {c s tr} (h : Reach c Works s tr) : RearmOk s := by
  induction h with
  | init cond => intro t _ _ _ _ _ hp; unfold init at hp; split at hp <;> cases hp
  | step hr hw hs ih => exact next_rearmOk hw (step_next hs).2 ih

/-- The re-registration does not fail. -/
theorem rearm_no_err {s : S} {t : Tid} {a : Act} {timed cap evs e} (hw : Works s t a) (h : RearmOk s)
    (hf : Fin s t a (.rearm timed cap evs) (.err e)) : False := by
  generalize hw' : Work.rearm timed cap evs = w at hf
  generalize hr' : Res.err e = r at hf
  cases hf with
  | eval hp => subst hw'; rw [h _ _ _ _ _ _ hp] at hr'; cases hr'
  | fail hp => subst hw'; unfold Works at hw; rw [hp] at hw; exact hw

/-- The armed read side, or a `wait` that is going to re-register it. -/
def Armed (c : Cfg) (s : S) : Prop :=
  s.k.knotes (.read c.notifFd) = some pairKnote ∨ ∃ t, preArm (s.pc t) = true

/-- If the flag is set or a notification is owed then there is a signal, or one is coming, or a `wait` is returning. -/
def Signalled (c : Cfg) (s : S) (tr : List KObs) : Prop :=
  s.notified = true ∨ owed tr = true ∨ (∃ t, atEnd (s.pc t) = true ∧ begun tr t = true) →
    signal c s.k ∨ (∃ t, pend (s.pc t) = true) ∨ ∃ t, post (s.pc t) = true

theorem exists_upd {P : Pc → Bool} {pc : Tid → Pc} {t : Tid} {p : Pc} (h : P (pc t) = true → P p = true)
    (he : ∃ u, P (pc u) = true) : ∃ u, P (upd pc t p u) = true := by
  obtain ⟨u, hu⟩ := he
  by_cases hut : u = t
  · subst hut; exact ⟨u, by rw [upd_self]; exact h hu⟩
  · exact ⟨u, by rw [upd_other _ hut]; exact hu⟩

theorem exists_upd' {P : Pc → Bool} {pc : Tid → Pc} {t : Tid} {p : Pc} {Q : Tid → Prop} (h : P p = false)
    (he : ∃ u, P (upd pc t p u) = true ∧ Q u) : ∃ u, P (pc u) = true ∧ Q u := by
  obtain ⟨u, hu, hq⟩ := he
  by_cases hut : u = t
  · subst hut; rw [upd_self, h] at hu; cases hu
  · exact ⟨u, by rwa [upd_other _ hut] at hu, hq⟩

theorem next_armed {c s t a s' o} (hok : c.Ok) (hu : c.user = false) (hw : Works s t a) (hn : Next c s t a s' o)
    (hp : ∀ u, PcOk c (s.pc u))
    (hsrc : s.sources (.fd c.notifFd) = true) (hk : PairKnote c s.k) (hro : RearmOk s) (h : Armed c s) : Armed c s' := by
  have ht := hp t
  have keep : ∀ {k : Kern} {p : Pc} {n l} {src}, k.knotes (.read c.notifFd) = s.k.knotes (.read c.notifFd) →
      (preArm (s.pc t) = true → preArm p = true) → Armed c ⟨k, src, n, l, upd s.pc t p⟩ := by
    intro k p n l src hk' hpre
    rcases h with h | h
    · exact .inl (by rw [← h]; exact hk')
    · exact .inr (exists_upd hpre h)
  cases hn with
  | reject => exact h
  | panic0 => exact h
  | begin hpc => exact keep rfl (by rw [hpc]; intro h; cases h)
  | dup hpc => exact keep rfl (by rw [hpc]; intro h; cases h)
  | inserted hpc => exact keep rfl (by rw [hpc]; intro h; cases h)
  | missing hpc => exact keep rfl (by rcases hpc with hpc | hpc <;> (rw [hpc]; intro h; cases h))
  | panic hpc => exact keep rfl (by rw [hpc]; intro h; cases h)
  | has hpc => exact keep rfl (by rw [hpc]; intro h; cases h)
  | removed hpc => exact keep rfl (by rw [hpc]; intro h; cases h)
  | ended hpc => exact keep rfl (by rw [hpc]; intro h; cases h)
  | wMissing hpc hs => rw [hsrc] at hs; cases hs
  | wHas hpc => exact .inr ⟨t, by dsimp only; rw [upd_self]; rfl⟩
  | @change fault w ev todo done errno k hpc hf hr =>
    rw [hpc] at ht
    cases w with
    | call call =>
      exact keep (reg_other (register_reg hr) (call_filter_ne ht (readInternal hu))).1 (by rw [hpc]; intro h; cases h)
    | notify => have : c.user = true := ht.1; rw [hu] at this; cases this
    | rearm timed cap evs =>
      unfold Works at hw; rw [hpc] at hw
      rcases rearm_change ht with ⟨h1, h2, h3, _⟩ | ⟨h1, h2, h3⟩
      · have hk' := (knote_after (register_reg hr) (by rw [h2]; rfl) hw).1
        rw [h1, added_pair hok hk.1 h1 h2 h3] at hk'
        exact .inl hk'
      · subst h3
        refine keep (reg_other (register_reg hr) (by rw [h1]; intro hc; cases hc)).1 (by rw [hpc]; intro h; cases h)
  | finCall hf => exact keep rfl (by obtain ⟨_, _, hpc⟩ := hf.pc; rw [hpc]; intro h; cases h)
  | finDelete hf => exact keep rfl (by obtain ⟨_, _, hpc⟩ := hf.pc; rw [hpc]; intro h; cases h)
  | finNotify hf => exact keep rfl (by obtain ⟨_, _, hpc⟩ := hf.pc; rw [hpc]; intro h; cases h)
  | finRearm hf => exact keep rfl (by obtain ⟨_, hpc, _⟩ := hf.ok rfl; rw [hpc]; intro h; cases h)
  | rearmRetry hf => exact (rearm_no_err hw hro hf).elim
  | rearmErr hf => exact (rearm_no_err hw hro hf).elim
  | kevRetry => exact h
  | kevErr hpc => exact keep rfl (by rw [hpc]; intro h; cases h)
  | casSeen => exact h
  | casUser hpc => exact keep rfl (by rw [hpc]; intro h; cases h)
  | casPair hpc => exact keep rfl (by rw [hpc]; intro h; cases h)
  | writeFail hpc => exact keep rfl (by rw [hpc]; intro h; cases h)
  | write hpc => exact keep (by rw [activate_knotes]) (by rw [hpc]; intro h; cases h)
  | waitBusy => exact h
  | waitBegin hpc => exact keep rfl (by rw [hpc]; intro h; cases h)
  | kevent hpc => exact .inr ⟨t, by dsimp only; rw [upd_self, hu]; rfl⟩
  | read => exact h
  | readEnd hpc => exact keep rfl (by rw [hpc]; intro _; rfl)
  | finish hpc => exact keep rfl (by rw [hpc]; intro h; cases h)
  | raise =>
    rcases h with h | h
    · exact .inl (by rw [activate_knotes]; exact h)
    · exact .inr h
  | fall => exact h

theorem reach_armed {c s tr} (hok : c.Ok) (hu : c.user = false) (h : Reach c Works s tr) : Armed c s := by
  induction h with
  | init cond => exact .inl (init_pair c hok hu cond).2
  | step hr hw hs ih =>
    exact next_armed hok hu hw (step_next hs).2 (reach_pcOk hr) ((reach_srcs hr).own hu)
      (reach_pairKnote hok hu hr) (reach_rearmOk hr) ih

theorem next_signalled {c s t a s' o} {tr : List KObs} (hw : Works s t a) (hn : Next c s t a s' o)
    (hp : ∀ u, PcOk c (s.pc u)) (hsrc : c.user = false → s.sources (.fd c.notifFd) = true)
    (hro : RearmOk s) (h : Signalled c s tr) : Signalled c s' (o :: tr) := by
  have ht := hp t
  -- nothing about notifications changes
  have keep : ∀ {k : Kern} {p : Pc} {l} {src} {o : KObs}, (signal c s.k → signal c k) →
      (pend (s.pc t) = true → pend p = true) → (post (s.pc t) = true → post p = true) → atEnd p = false →
      (owed (o :: tr) = true → owed tr = true) → (∀ u, begun (o :: tr) u = true → begun tr u = true) →
      Signalled c ⟨k, src, s.notified, l, upd s.pc t p⟩ (o :: tr) := by
    intro k p l src o hsig hpe hpo hat how hbe hpre
    have hpre' : s.notified = true ∨ owed tr = true ∨ ∃ t, atEnd (s.pc t) = true ∧ begun tr t = true := by
      rcases hpre with h1 | h1 | h1
      · exact .inl h1
      · exact .inr (.inl (how h1))
      · obtain ⟨u, h2, h3⟩ := exists_upd' hat h1
        exact .inr (.inr ⟨u, h2, hbe u h3⟩)
    rcases h hpre' with h1 | h1 | h1
    · exact .inl (hsig h1)
    · exact .inr (.inl (exists_upd hpe h1))
    · exact .inr (.inr (exists_upd hpo h1))
  have nopc : ∀ {k : Kern} {l} {src} {o : KObs}, (signal c s.k → signal c k) →
      (owed (o :: tr) = true → owed tr = true) → (∀ u, begun (o :: tr) u = true → begun tr u = true) →
      Signalled c ⟨k, src, s.notified, l, s.pc⟩ (o :: tr) := by
    intro k l src o hsig how hbe hpre
    have hpre' : s.notified = true ∨ owed tr = true ∨ ∃ t, atEnd (s.pc t) = true ∧ begun tr t = true := by
      rcases hpre with h1 | h1 | ⟨u, h2, h3⟩
      · exact .inl h1
      · exact .inr (.inl (how h1))
      · exact .inr (.inr ⟨u, h2, hbe u h3⟩)
    exact (h hpre').imp hsig id
  cases hn with
  | reject => exact nopc id id fun _ => id
  | panic0 => exact nopc id id fun _ => id
  | @begin call hpc => exact keep id (by rw [hpc]; intro h; cases h) (by rw [hpc]; intro h; cases h) (by cases call <;> rfl) id fun _ => id
  | dup hpc => exact keep id (by rw [hpc]; intro h; cases h) (by rw [hpc]; intro h; cases h) rfl id fun _ => id
  | inserted hpc => exact keep id (by rw [hpc]; intro h; cases h) (by rw [hpc]; intro h; cases h) rfl id fun _ => id
  | missing hpc =>
    exact keep id (by rcases hpc with hpc | hpc <;> (rw [hpc]; intro h; cases h))
      (by rcases hpc with hpc | hpc <;> (rw [hpc]; intro h; cases h)) rfl id fun _ => id
  | panic hpc => exact keep id (by rw [hpc]; intro h; cases h) (by rw [hpc]; intro h; cases h) rfl id fun _ => id
  | has hpc => exact keep id (by rw [hpc]; intro h; cases h) (by rw [hpc]; intro h; cases h) rfl id fun _ => id
  | removed hpc => exact keep id (by rw [hpc]; intro h; cases h) (by rw [hpc]; intro h; cases h) rfl id fun _ => id
  | ended hpc => exact keep id (by rw [hpc]; intro h; cases h) (by rw [hpc]; intro h; cases h) rfl id fun _ => id
  | wMissing hpc hs =>
    rw [hpc] at ht
    rw [hsrc ht.1] at hs; cases hs
  | wHas hpc => exact keep id (by rw [hpc]; intro h; cases h) (by rw [hpc]; intro _; rfl) rfl id fun _ => id
  | @change fault w ev todo done errno k hpc hf hr =>
    rw [hpc] at ht
    have hobs : owed (changeObs t ev errno :: tr) = owed tr ∧ ∀ u, begun (changeObs t ev errno :: tr) u = begun tr u := by
      unfold changeObs
      split
      · exact ⟨rfl, fun _ => rfl⟩
      · split <;> exact ⟨rfl, fun _ => rfl⟩
    have henv := reg_env (register_reg hr)
    have hsig : (∀ f, c.internal f = true → f ≠ ev.filter ∨ c.user = false) → signal c s.k → signal c k := by
      intro hne hsg
      unfold signal at hsg ⊢
      split
      · next hcu =>
        rw [if_pos hcu] at hsg
        rcases hne _ (userInternal hcu) with h1 | h1
        · exact (reg_other (register_reg hr) h1).2.2 hsg
        · rw [hcu] at h1; cases h1
      · next hcu => rw [if_neg hcu] at hsg; rw [henv.2]; exact hsg
    cases w with
    | call call =>
      exact keep (hsig fun f hf => .inl (call_filter_ne ht hf)) (by rw [hpc]; intro h; cases h)
        (by rw [hpc]; intro h; cases h) rfl (by rw [hobs.1]; exact id) (fun u => by rw [hobs.2]; exact id)
    | rearm timed cap evs =>
      exact keep (hsig fun f hf => .inr ht.1.1) (by rw [hpc]; intro h; cases h)
        (by rw [hpc]; intro _; rfl) rfl (by rw [hobs.1]; exact id) (fun u => by rw [hobs.2]; exact id)
    | notify =>
      obtain ⟨rfl, rfl, rfl⟩ := notify_change ht
      have hcu : c.user = true := ht.1
      unfold Works at hw; rw [hpc] at hw
      intro _
      left
      unfold signal
      rw [if_pos hcu]
      exact (knote_after (register_reg hr) rfl hw).2.2.2 (.inr rfl)
  | finCall hf =>
    obtain ⟨_, _, hpc⟩ := hf.pc
    exact keep id (by rw [hpc]; intro h; cases h) (by rw [hpc]; intro h; cases h) rfl id fun _ => id
  | finDelete hf =>
    obtain ⟨_, _, hpc⟩ := hf.pc
    exact keep id (by rw [hpc]; intro h; cases h) (by rw [hpc]; intro h; cases h) rfl id fun _ => id
  | finNotify hf =>
    have hpc : ∃ done, s.pc t = .submit .notify [] done := by
      cases hf with
      | eval hpc => exact ⟨_, hpc⟩
      | fail hpc => unfold Works at hw; rw [hpc] at hw; exact hw.elim
    obtain ⟨done, hpc⟩ := hpc
    intro hpre
    have hpre' : s.notified = true ∨ owed tr = true ∨ ∃ t, atEnd (s.pc t) = true ∧ begun tr t = true := by
      rcases hpre with h1 | h1 | h1
      · exact .inl h1
      · simp only [owed, Bool.or_eq_true] at h1
        rcases h1 with h1 | h1
        · exact .inr (.inr ⟨t, by rw [hpc]; rfl, h1⟩)
        · exact .inr (.inl h1)
      · obtain ⟨u, h2, h3⟩ := exists_upd' rfl h1
        exact .inr (.inr ⟨u, h2, h3⟩)
    rcases h hpre' with h1 | h1 | h1
    · exact .inl h1
    · exact .inr (.inl (exists_upd (by rw [hpc]; intro h; cases h) h1))
    · exact .inr (.inr (exists_upd (by rw [hpc]; intro h; cases h) h1))
  | finRearm hf =>
    obtain ⟨_, _, hpc⟩ := hf.pc
    exact keep id (by rw [hpc]; intro h; cases h) (by rw [hpc]; intro _; rfl) rfl id fun _ => id
  | rearmRetry hf => exact (rearm_no_err hw hro hf).elim
  | rearmErr hf => exact (rearm_no_err hw hro hf).elim
  | kevRetry => exact nopc id id fun _ => id
  | kevErr hpc => exact keep id (by rw [hpc]; intro h; cases h) (by rw [hpc]; intro h; cases h) rfl id fun _ => id
  | casSeen hpc hno => exact fun _ => h (.inl hno)
  | casUser hpc => exact fun _ => .inr (.inl ⟨t, by dsimp only; rw [upd_self]; rfl⟩)
  | casPair hpc => exact fun _ => .inr (.inl ⟨t, by dsimp only; rw [upd_self]; rfl⟩)
  | writeFail hpc => unfold Works at hw; rw [hpc] at hw; cases hw
  | write hpc =>
    rw [hpc] at ht
    have hcu : c.user = false := ht
    intro _
    left
    unfold signal
    rw [if_neg (by simp [hcu]), activate_chan]
    exact Nat.succ_pos _
  | waitBusy => exact nopc id id fun _ => id
  | waitBegin hpc => exact keep id (by rw [hpc]; intro h; cases h) (by rw [hpc]; intro h; cases h) rfl id fun _ => id
  | kevent hpc => exact fun _ => .inr (.inr ⟨t, by dsimp only; rw [upd_self]; cases c.user <;> rfl⟩)
  | read hpc => exact fun _ => .inr (.inr ⟨t, by dsimp only; rw [hpc]; rfl⟩)
  | readEnd hpc => exact keep id (by rw [hpc]; intro h; cases h) (by rw [hpc]; intro _; rfl) rfl id fun _ => id
  | finish hpc =>
    intro hpre
    exfalso
    rcases hpre with h1 | h1 | ⟨u, _, h1⟩ <;> cases h1
  | raise =>
    refine nopc (fun hs => ?_) id fun _ => id
    unfold signal at hs ⊢
    split
    · next hcu => rw [if_pos hcu] at hs; rw [activate_mem]; exact .inl hs
    · next hcu => rw [if_neg hcu] at hs; rw [activate_chan]; exact hs
  | fall => exact nopc id id fun _ => id

theorem reach_signalled {c s tr} (h : Reach c Works s tr) : Signalled c s tr := by
  induction h with
  | init cond =>
    intro hp
    have hpc : ∀ t, (init c cond).pc t = .out := by intro t; unfold init; split <;> rfl
    have hno : (init c cond).notified = false := by unfold init; split <;> rfl
    rcases hp with h1 | h1 | ⟨u, h1, _⟩
    · rw [hno] at h1; cases h1
    · cases h1
    · rw [hpc] at h1; cases h1
  | step hr hw hs ih =>
    exact next_signalled hw (step_next hs).2 (reach_pcOk hr) (reach_srcs hr).own (reach_rearmOk hr) ih

end Polling.KqM
