import Verif.Proof.KqScan

/-! Invariants of the kqueue machine. -/

namespace Polling.KqM
open Kqueue KqSpec

/-- Kernels give descriptors no `EV_CLEAR` of their own. -/
def Cfg.Ok (c : Cfg) : Prop := ∀ fd, c.autoClear (.read fd) = false ∧ c.autoClear (.write fd) = false

/-- What is submitted. -/
def changesOf (c : Cfg) : Work → List KEvent
  | .call call => changes call
  | .notify => [userChange true]
  | .rearm _ _ _ => fdChanges c.notifFd (Event.onlyReadable NOTIFY_KEY) .oneshot

def WorkOk (c : Cfg) : Work → Prop
  | .call call => accessible c call = true
  | .notify => c.user = true
  | .rearm _ cap _ => c.user = false ∧ cap > 0

/-- Positions that can occur. -/
def PcOk (c : Cfg) : Pc → Prop
  | .insert call | .has call | .remove call | .ending call => accessible c call = true
  | .submit w todo done => WorkOk c w ∧ ∃ pre errs, changesOf c w = pre ++ todo ∧ pre.length = errs.length ∧
      done = List.zipWith receipt pre errs
  | .nWrite => c.user = false
  | .wKev _ cap => cap > 0
  | .wClear _ cap _ | .wHas _ cap _ => c.user = false ∧ cap > 0
  | _ => True

theorem next_pcOk {c s t a s' o} (hn : Next c s t a s' o) (h : ∀ u, PcOk c (s.pc u)) : ∀ u, PcOk c (s'.pc u) := by
  intro u
  have hu := h u
  have ht := h t
  by_cases hut : u = t
  · subst hut
    cases hn with
    | begin hp hacc hr hv =>
      rename_i call
      dsimp only; rw [upd_self]
      cases call <;> first | exact hacc | exact ⟨hacc, [], [], rfl, rfl, rfl⟩
    | has hp hs hv => rw [hp] at ht; dsimp only; rw [upd_self]; exact ⟨ht, [], [], rfl, rfl, rfl⟩
    | wHas hp hs => rw [hp] at ht; dsimp only; rw [upd_self]; exact ⟨ht, [], [], rfl, rfl, rfl⟩
    | inserted hp hs => rw [hp] at ht; dsimp only; rw [upd_self]; exact ht
    | removed hp hs => rw [hp] at ht; dsimp only; rw [upd_self]; exact ht
    | @change fault w ev todo done errno k hp hf hr =>
      rw [hp] at ht; dsimp only; rw [upd_self]
      obtain ⟨h1, pre, errs, h2, h3, h4⟩ := ht
      refine ⟨h1, pre ++ [ev], errs ++ [errno], by simp [h2], by simp [h3], ?_⟩
      rw [List.zipWith_append h3, h4]; rfl
    | finDelete hf hd =>
      dsimp only; rw [upd_self]
      obtain ⟨_, _, hp⟩ := hf.pc
      rw [hp] at ht; exact ht.1
    | rearmRetry hf =>
      dsimp only; rw [upd_self]
      obtain ⟨_, _, hp⟩ := hf.pc
      rw [hp] at ht; exact ht.1.2
    | casUser hp hn hc => dsimp only; rw [upd_self]; exact ⟨hc, [], [], rfl, rfl, rfl⟩
    | casPair hp hn hc => dsimp only; rw [upd_self]; exact hc
    | waitBegin hp hl hc => dsimp only; rw [upd_self]; exact hc
    | kevent hp hh hc =>
      dsimp only; rw [upd_self]
      rw [hp] at ht
      cases hcu : c.user with
      | true => exact trivial
      | false => exact ⟨hcu, ht⟩
    | readEnd hp hc => rw [hp] at ht; dsimp only; rw [upd_self]; exact ht
    | _ => first | exact hu | (dsimp only; rw [upd_self]; exact trivial)
  · cases hn <;> first | exact hu | (dsimp only; rw [upd_other _ hut]; exact hu)

theorem reach_pcOk {c P s tr} (h : Reach c P s tr) : ∀ t, PcOk c (s.pc t) := by
  induction h with
  | init cond => intro t; unfold init; split <;> exact trivial
  | step _ _ hs ih => exact next_pcOk (step_next hs).2 ih

/-- Inside `wait`. -/
def inWait : Pc → Bool
  | .wKev _ _ | .wClear _ _ _ | .wHas _ _ _ | .wFin _ | .submit (.rearm _ _ _) _ _ => true
  | _ => false

theorem next_lib {c s t a s' o} (hn : Next c s t a s' o) (h : ∀ u, s.lib = some u ↔ inWait (s.pc u) = true) :
    ∀ u, s'.lib = some u ↔ inWait (s'.pc u) = true := by
  intro u
  have hu := h u
  have ht := h t
  have keep : ∀ {p}, inWait p = inWait (s.pc t) → (s.lib = some u ↔ inWait (upd s.pc t p u) = true) := by
    intro p hp
    by_cases hut : u = t
    · subst hut; rw [upd_self, hp]; exact hu
    · rw [upd_other _ hut]; exact hu
  have leave : ∀ {p}, inWait (s.pc t) = true → inWait p = false → (none = some u ↔ inWait (upd s.pc t p u) = true) := by
    intro p hp hq
    by_cases hut : u = t
    · subst hut; rw [upd_self, hq]; simp
    · rw [upd_other _ hut, ← hu, ht.2 hp]; simp [Ne.symm hut]
  cases hn with
  | reject => exact hu
  | panic0 => exact hu
  | @begin call hp => exact keep (by rw [hp]; cases call <;> rfl)
  | dup hp => exact keep (by rw [hp]; rfl)
  | inserted hp => exact keep (by rw [hp]; rfl)
  | missing hp => exact keep (by rcases hp with hp | hp <;> (rw [hp]; rfl))
  | panic hp => exact keep (by rw [hp]; rfl)
  | has hp => exact keep (by rw [hp]; rfl)
  | removed hp => exact keep (by rw [hp]; rfl)
  | ended hp => exact keep (by rw [hp]; rfl)
  | wMissing hp => exact leave (by rw [hp]; rfl) rfl
  | wHas hp => exact keep (by rw [hp]; rfl)
  | @change fault w ev todo done errno k hp => exact keep (by rw [hp]; cases w <;> rfl)
  | finCall hf => exact keep (by obtain ⟨_, _, hp⟩ := hf.pc; rw [hp]; rfl)
  | finDelete hf => exact keep (by obtain ⟨_, _, hp⟩ := hf.pc; rw [hp]; rfl)
  | finNotify hf => exact keep (by obtain ⟨_, _, hp⟩ := hf.pc; rw [hp]; rfl)
  | finRearm hf => exact keep (by obtain ⟨_, _, hp⟩ := hf.pc; rw [hp]; rfl)
  | rearmRetry hf => exact keep (by obtain ⟨_, _, hp⟩ := hf.pc; rw [hp]; rfl)
  | rearmErr hf => exact leave (by obtain ⟨_, _, hp⟩ := hf.pc; rw [hp]; rfl) rfl
  | kevRetry => exact hu
  | kevErr hp => exact leave (by rw [hp]; rfl) rfl
  | casSeen => exact hu
  | casUser hp => exact keep (by rw [hp]; rfl)
  | casPair hp => exact keep (by rw [hp]; rfl)
  | writeFail hp => exact keep (by rw [hp]; rfl)
  | write hp => exact keep (by rw [hp]; rfl)
  | waitBusy => exact hu
  | waitBegin hp hl =>
    dsimp only
    by_cases hut : u = t
    · subst hut; rw [upd_self]; simp [inWait]
    · rw [upd_other _ hut, ← hu, hl]; simp [Ne.symm hut]
  | kevent hp => exact keep (by rw [hp]; cases c.user <;> rfl)
  | read => exact hu
  | readEnd hp => exact keep (by rw [hp]; rfl)
  | finish hp => exact leave (by rw [hp]; rfl) rfl
  | raise => exact hu
  | fall => exact hu

theorem reach_lib {c P s tr} (h : Reach c P s tr) : ∀ t, s.lib = some t ↔ inWait (s.pc t) = true := by
  induction h with
  | init cond => intro t; unfold init; split <;> simp [inWait]
  | step _ _ hs ih => exact next_lib (step_next hs).2 ih

theorem next_range {c s t a s' o} (ht : t < c.threads) (hn : Next c s t a s' o) (h : ∀ u, u ≥ c.threads → s.pc u = .out) :
    ∀ u, u ≥ c.threads → s'.pc u = .out := by
  intro u hu
  have hut : u ≠ t := by omega
  have := h u hu
  cases hn <;> first | exact this | (dsimp only; rw [upd_other _ hut]; exact this)

theorem reach_range {c P s tr} (h : Reach c P s tr) : ∀ t, t ≥ c.threads → s.pc t = .out := by
  induction h with
  | init cond => intro t _; unfold init; split <;> rfl
  | step _ _ hs ih => exact next_range (step_next hs).1 (step_next hs).2 ih

/-! The kernel's tables. -/

theorem ready_chan {c : Cfg} {k : Kern} {n : Nat} (f : Filter) (hn : n ≤ k.chan)
    (h : (ready c { k with chan := n } f).isSome = true) : (ready c k f).isSome = true := by
  unfold ready at h ⊢
  by_cases hu : c.user = true
  · simpa [hu] using h
  · by_cases h1 : f = .read c.notifFd
    · subst h1
      by_cases h2 : n > 0
      · have : k.chan > 0 := by omega
        simp [hu, this]
      · simp [hu, h2] at h
    · simpa [hu, h1] using h

theorem next_ki {c s t a s' o} (hn : Next c s t a s' o) (h : KI c s.k) (hp : ∀ u, PcOk c (s.pc u)) : KI c s'.k := by
  cases hn with
  | change hp hf hr => exact ki_reg h (register_reg hr)
  | kevent hp hh hc =>
    obtain ⟨_, _, _, _, _, hb⟩ := harvest_batch h.nodup hh
    exact ki_batch h hb
  | read hp hc => exact ki_env h rfl rfl fun f hf => ready_chan f (by omega) hf
  | write hpw =>
    have hpc := hp t
    rw [hpw] at hpc
    refine ki_activate h rfl rfl fun x hx hr => ?_
    have hcu : c.user = false := hpc
    unfold ready at hr ⊢
    simp only [hcu, Bool.false_eq_true, if_false, if_neg hx] at hr ⊢
    exact hr
  | raise hi =>
    refine ki_activate h rfl rfl fun x hx hr => ?_
    unfold ready at hr ⊢
    simp only [if_neg hx] at hr
    exact hr
  | @fall f hi =>
    refine ki_env h rfl rfl fun x hr => ?_
    by_cases hx : x = f
    · subst hx
      unfold Cfg.internal at hi
      unfold ready at hr
      by_cases hu : c.user = true
      · simp [hu] at hi; simp [hu, hi] at hr
      · simp [hu] at hi; simp [hu, hi] at hr
    · unfold ready at hr ⊢
      simp only [if_neg hx] at hr
      exact hr
  | _ => exact h

theorem init_ki (c : Cfg) (cond) : KI c (init c cond).k := by
  have h0 : KI c (⟨fun _ => none, [], cond, 0⟩ : Kern) := ⟨by simp, by simp, by simp⟩
  unfold init
  split
  · exact ki_reg h0 (register_reg (Prod.eta _).symm)
  · simp only [fdChanges, List.foldl]
    exact ki_reg (ki_reg h0 (register_reg (Prod.eta _).symm)) (register_reg (Prod.eta _).symm)

theorem reach_ki {c P s tr} (h : Reach c P s tr) : KI c s.k := by
  induction h with
  | init cond => exact init_ki c cond
  | step hr _ hs ih => exact next_ki (step_next hs).2 ih (reach_pcOk hr)

/-! Filters of calls. -/

theorem changes_filter {c : Cfg} {call : Call} (h : accessible c call = true) {ev : KEvent} (he : ev ∈ changes call) :
    c.internal ev.filter = false ∧ isUser ev.filter = false ∧ ev.flags.receipt = true ∧ (ev.flags.add = true ∨ ev.flags.delete = true) := by
  have hfd : ∀ {fd e mode}, (c.user = false → fd ≠ c.notifFd) → ev ∈ fdChanges fd e mode →
      c.internal ev.filter = false ∧ isUser ev.filter = false ∧ ev.flags.receipt = true ∧
        (ev.flags.add = true ∨ ev.flags.delete = true) := by
    intro fd e mode hne hm
    simp only [fdChanges, List.mem_cons, List.mem_nil_iff, or_false] at hm
    unfold Cfg.internal
    cases hu : c.user with
    | true =>
      rcases hm with rfl | rfl <;> refine ⟨rfl, rfl, ?_⟩ <;> simp only [changeFlags] <;> split <;> simp
    | false =>
      have hne' := hne hu
      rcases hm with rfl | rfl <;>
        (refine ⟨by simp [hne'], rfl, ?_⟩ <;> simp only [changeFlags] <;> split <;> simp)
  have hacc : ∀ {fd}, source call = .fd fd → c.user = false → fd ≠ c.notifFd := by
    intro fd hs hu
    unfold accessible at h
    rw [hu, hs] at h
    simpa using h
  have hext : ∀ {x : Ext}, c.internal (Ext.filter x) = false ∧ isUser (Ext.filter x) = false := by
    intro x; cases x <;> (unfold Cfg.internal; cases c.user <;> exact ⟨rfl, rfl⟩)
  cases call with
  | add fd e mode => exact hfd (hacc rfl) he
  | modify fd e mode => exact hfd (hacc rfl) he
  | delete fd => exact hfd (hacc rfl) he
  | addFilter x key mode =>
    simp only [changes, List.mem_cons, List.mem_nil_iff, or_false] at he
    subst he; exact ⟨hext.1, hext.2, rfl, .inl rfl⟩
  | modifyFilter x key mode =>
    simp only [changes, List.mem_cons, List.mem_nil_iff, or_false] at he
    subst he; exact ⟨hext.1, hext.2, rfl, .inl rfl⟩
  | deleteFilter x =>
    simp only [changes, List.mem_cons, List.mem_nil_iff, or_false] at he
    subst he; exact ⟨hext.1, hext.2, rfl, .inr rfl⟩

theorem own_filter {c : Cfg} {w : Work} (hw : WorkOk c w) (hc : ∀ call, w ≠ .call call) {ev : KEvent} (he : ev ∈ changesOf c w) :
    c.internal ev.filter = true := by
  cases w with
  | call call => exact absurd rfl (hc call)
  | notify =>
    simp only [changesOf, List.mem_cons, List.mem_nil_iff, or_false] at he
    subst he
    have : c.user = true := hw
    simp [Cfg.internal, this, userChange]
  | rearm timed cap evs =>
    simp only [changesOf, fdChanges, List.mem_cons, List.mem_nil_iff, or_false] at he
    have : c.user = false := hw.1
    rcases he with rfl | rfl <;> simp [Cfg.internal, this]

/-- The change being processed. -/
theorem head_change {c : Cfg} {w : Work} {ev : KEvent} {todo done : List KEvent} (h : PcOk c (.submit w (ev :: todo) done)) :
    ev ∈ changesOf c w := by
  obtain ⟨_, pre, errs, h2, _, _⟩ := h
  rw [h2]; simp

/-! The registrations of the filters. -/

/-- The knote is what the history says. -/
def Match (c : Cfg) (f : Filter) : Option Watch → Option Knote → Prop
  | none, none => True
  | some w, none => w.gone = true
  | some w, some n => w.gone = false ∧ n.udata = w.key ∧ n.oneshot = w.oneshot ∧ n.clear = (w.clear || c.autoClear f)
  | none, some _ => False

theorem match_change {c : Cfg} {fault k ev errno k'} {t : Tid} {tr : List KObs} (hr : Reg c fault k ev errno k')
    (had : ev.flags.add = true ∨ ev.flags.delete = true) (hf0 : fault ≠ some 0)
    (h : ∀ f, c.internal f = false → Match c f (watch c.keepMode tr f) (k.knotes f)) :
    ∀ f, c.internal f = false → Match c f (watch c.keepMode (changeObs t ev errno :: tr) f) (k'.knotes f) := by
  intro f hi
  have hf := h f hi
  by_cases hfe : f = ev.filter
  · have key : ev.flags.add = true → k'.knotes ev.filter = some (added c (k.knotes ev.filter) ev) →
        Match c f (watch c.keepMode (changeObs t ev 0 :: tr) f) (k'.knotes f) := by
      intro ha hk
      subst hfe
      simp only [changeObs, ha, ne_eq, not_true_eq_false, if_false, if_true]
      rw [hk]
      simp only [watch, if_true]
      unfold added
      cases hw : watch c.keepMode tr ev.filter with
      | none =>
        rw [hw] at hf
        cases hn : k.knotes ev.filter with
        | some n => rw [hn] at hf; exact hf.elim
        | none => exact ⟨by simp [Watch.gone], rfl, rfl, rfl⟩
      | some w =>
        rw [hw] at hf
        cases hn : k.knotes ev.filter with
        | none =>
          rw [hn] at hf
          have hg : w.gone = true := hf
          simp only [hg, Bool.not_true, Bool.and_false, Bool.false_eq_true, if_false]
          exact ⟨by simp [Watch.gone], rfl, rfl, rfl⟩
        | some n =>
          rw [hn] at hf
          obtain ⟨hg, h1, h2, h3⟩ := hf
          simp only [hg, Bool.not_false, Bool.and_true]
          split
          · exact ⟨by simp [Watch.gone], rfl, h2, h3⟩
          · exact ⟨by simp [Watch.gone], rfl, rfl, rfl⟩
    cases hr with
    | fault he =>
      have : errno ≠ 0 := by rintro rfl; exact hf0 he
      simp only [changeObs, this, ne_eq, not_false_eq_true, if_true, watch]
      exact hf
    | add _ ha _ => exact key ha (by rw [activate_knotes]; simp [setKnote])
    | addIdle _ ha _ => exact key ha (by simp [setKnote])
    | missing =>
      have : ENOENT ≠ 0 := by decide
      simp only [changeObs, this, ne_eq, not_false_eq_true, if_true, watch]
      exact hf
    | delete _ ha hd =>
      simp only [changeObs, ha, ne_eq, not_true_eq_false, Bool.false_eq_true, if_false, watch, hfe, if_true, setKnote]
      exact trivial
    | nothing _ ha hd => rcases had with h | h <;> simp_all
  · have h1 := (reg_other hr hfe).1
    rw [h1]
    unfold changeObs
    split
    · exact hf
    · split
      · simp only [watch, if_neg hfe]; exact hf
      · simp only [watch, if_neg hfe]; exact hf

theorem match_own {c : Cfg} {fault k ev errno k'} {t : Tid} {tr : List KObs} (hr : Reg c fault k ev errno k')
    (hown : c.internal ev.filter = true)
    (h : ∀ f, c.internal f = false → Match c f (watch c.keepMode tr f) (k.knotes f)) :
    ∀ f, c.internal f = false → Match c f (watch c.keepMode (changeObs t ev errno :: tr) f) (k'.knotes f) := by
  intro f hi
  have hfe : f ≠ ev.filter := by rintro rfl; rw [hown] at hi; cases hi
  rw [(reg_other hr hfe).1]
  have hf := h f hi
  unfold changeObs
  split
  · exact hf
  · split
    · simp only [watch, if_neg hfe]; exact hf
    · simp only [watch, if_neg hfe]; exact hf

/-- The delivered filters are those taken, apart from the poller's own. -/
theorem deliver_filters {c : Cfg} {k k' : Kern} {cap : Nat} {evs : List KEvent} {took : List Filter}
    (hb : Batch c k cap evs k' took) {f : Filter} (hi : c.internal f = false) :
    f ∈ (evs.filter fun e => !c.internal e.filter).map KEvent.filter ↔ f ∈ took := by
  rw [hb.evs]
  simp only [List.mem_map, List.mem_filter]
  constructor
  · rintro ⟨e, ⟨⟨g, hg, rfl⟩, _⟩, rfl⟩; exact hg
  · intro hf
    exact ⟨eventOf (ready c k) k.knotes f, ⟨⟨f, hf, rfl⟩, by simp [eventOf, hi]⟩, rfl⟩

theorem match_batch {c : Cfg} {k k' : Kern} {cap : Nat} {evs : List KEvent} {took : List Filter} {t : Tid} {tr : List KObs}
    (hb : Batch c k cap evs k' took)
    (h : ∀ f, c.internal f = false → Match c f (watch c.keepMode tr f) (k.knotes f)) :
    ∀ f, c.internal f = false →
      Match c f (watch c.keepMode (.deliver t (evs.filter fun e => !c.internal e.filter) :: tr) f) (k'.knotes f) := by
  intro f hi
  have hf := h f hi
  simp only [watch, deliver_filters hb hi, hb.knotes]
  by_cases hm : f ∈ took
  · simp only [if_pos hm]
    have hh := (hb.queued f hm).2
    unfold hot at hh
    cases hn : k.knotes f with
    | none => rw [hn] at hh; cases hh
    | some n =>
      rw [hn] at hf
      cases hw : watch c.keepMode tr f with
      | none => rw [hw] at hf; exact hf.elim
      | some w =>
        rw [hw] at hf
        obtain ⟨hg, h1, h2, h3⟩ := hf
        simp only [Option.map_some, reported, Option.filter]
        by_cases ho : n.oneshot = true
        · rw [if_neg (by simp [ho])]; show Watch.gone _ = true; simp [Watch.gone, ← h2, ho]
        · rw [if_pos (by simp [ho])]; exact ⟨by simp [Watch.gone, ← h2, ho], h1, h2, h3⟩
  · simp only [if_neg hm]
    have : (watch c.keepMode tr f).map (fun w => w) = watch c.keepMode tr f := by cases watch c.keepMode tr f <;> rfl
    rw [this]
    exact hf

theorem next_match {c s t a s' o} {tr : List KObs} (hn : Next c s t a s' o) (hki : KI c s.k) (hp : ∀ u, PcOk c (s.pc u))
    (h : ∀ f, c.internal f = false → Match c f (watch c.keepMode tr f) (s.k.knotes f)) :
    ∀ f, c.internal f = false → Match c f (watch c.keepMode (o :: tr) f) (s'.k.knotes f) := by
  have ht := hp t
  cases hn with
  | @change fault w ev todo done errno k hpc hf hr =>
    rw [hpc] at ht
    by_cases hw : ∃ call, w = .call call
    · obtain ⟨call, rfl⟩ := hw
      exact match_change (register_reg hr) (changes_filter ht.1 (head_change ht)).2.2.2 hf h
    · exact match_own (register_reg hr) (own_filter ht.1 (fun call hc => hw ⟨call, hc⟩) (head_change ht)) h
  | kevent hpc hh hc =>
    obtain ⟨_, _, _, _, _, hb⟩ := harvest_batch hki.nodup hh
    exact match_batch hb h
  | write => intro f hi; rw [activate_knotes]; exact h f hi
  | raise => intro f hi; rw [activate_knotes]; exact h f hi
  | _ => exact h

theorem init_match (c : Cfg) (cond) : ∀ f, c.internal f = false → Match c f none ((init c cond).k.knotes f) := by
  intro f hi
  unfold init
  unfold Cfg.internal at hi
  split
  · next hu =>
    rw [hu] at hi
    have hr := register_reg (c := c) (fault := none) (k := ⟨fun _ => none, [], cond, 0⟩) (ev := userChange false) (Prod.eta _).symm
    have : f ≠ (userChange false).filter := by rintro rfl; simp [userChange] at hi
    rw [(reg_other hr this).1]
    exact trivial
  · next hu =>
    simp only [Bool.not_eq_true] at hu
    rw [hu] at hi
    simp only [Bool.false_eq_true, if_false, Bool.or_eq_false_iff, beq_eq_false_iff_ne, ne_eq] at hi
    simp only [fdChanges, List.foldl]
    have h2 := register_reg (c := c) (fault := none) (k := (register c none ⟨fun _ => none, [], cond, 0⟩
      { filter := .read c.notifFd, flags := changeFlags (Event.onlyReadable (X := EventExtra) NOTIFY_KEY).readable .oneshot, udata := keyToU64 NOTIFY_KEY }).2)
      (ev := { filter := .write c.notifFd, flags := changeFlags (Event.onlyReadable (X := EventExtra) NOTIFY_KEY).writable .oneshot, udata := keyToU64 NOTIFY_KEY })
      (Prod.eta _).symm
    have h1 := register_reg (c := c) (fault := none) (k := ⟨fun _ => none, [], cond, 0⟩)
      (ev := { filter := .read c.notifFd, flags := changeFlags (Event.onlyReadable (X := EventExtra) NOTIFY_KEY).readable .oneshot, udata := keyToU64 NOTIFY_KEY })
      (Prod.eta _).symm
    have e2 := (reg_other h2 (f := f) hi.2).1
    have e1 := (reg_other h1 (f := f) hi.1).1
    have e : ∀ k, (register c none k { filter := .write c.notifFd, flags := changeFlags (Event.onlyReadable (X := EventExtra) NOTIFY_KEY).writable .oneshot, udata := keyToU64 (Event.onlyReadable (X := EventExtra) NOTIFY_KEY).key }) =
      (register c none k { filter := .write c.notifFd, flags := changeFlags (Event.onlyReadable (X := EventExtra) NOTIFY_KEY).writable .oneshot, udata := keyToU64 NOTIFY_KEY }) := fun _ => rfl
    show Match c f none ((register c none (register c none ⟨fun _ => none, [], cond, 0⟩ _).2 _).2.knotes f)
    rw [e]
    rw [show (Event.onlyReadable (X := EventExtra) NOTIFY_KEY).key = NOTIFY_KEY from rfl, e2, e1]
    exact trivial

theorem reach_match {c P s tr} (h : Reach c P s tr) :
    ∀ f, c.internal f = false → Match c f (watch c.keepMode tr f) (s.k.knotes f) := by
  induction h with
  | init cond => exact init_match c cond
  | step hr _ hs ih => exact next_match (step_next hs).2 (reach_ki hr) (reach_pcOk hr) ih

/-! The set of sources. -/

/-- The source is not the poller's own. -/
def Cfg.users (c : Cfg) (x : Source) : Bool := c.user || x != .fd c.notifFd

structure Srcs (c : Cfg) (s : S) (tr : List KObs) : Prop where
  user : ∀ x, c.users x = true → s.sources x = registered tr x
  own : c.user = false → s.sources (.fd c.notifFd) = true

theorem next_srcs {c s t a s' o} {tr : List KObs} (hn : Next c s t a s' o) (hp : ∀ u, PcOk c (s.pc u)) (h : Srcs c s tr) :
    Srcs c s' (o :: tr) := by
  have ht := hp t
  cases hn with
  | @inserted call hpc hs =>
    rw [hpc] at ht
    refine ⟨fun x hx => ?_, fun hu => ?_⟩
    · simp only [registered]
      split
      · rfl
      · exact h.user x hx
    · have : Source.fd c.notifFd ≠ source call := by
        have ha : accessible c call = true := ht
        unfold accessible at ha; rw [hu] at ha; rintro e; rw [← e] at ha; simp at ha
      simp only [if_neg this]; exact h.own hu
  | @removed call hpc hs =>
    rw [hpc] at ht
    refine ⟨fun x hx => ?_, fun hu => ?_⟩
    · simp only [registered]
      split
      · rfl
      · exact h.user x hx
    · have : Source.fd c.notifFd ≠ source call := by
        have ha : accessible c call = true := ht
        unfold accessible at ha; rw [hu] at ha; rintro e; rw [← e] at ha; simp at ha
      simp only [if_neg this]; exact h.own hu
  | @change fault w ev todo done errno k hpc hf hr =>
    refine ⟨fun x hx => ?_, h.own⟩
    rw [show registered (changeObs t ev errno :: tr) x = registered tr x by
      unfold changeObs; split; rfl; split <;> rfl]
    exact h.user x hx
  | _ => exact ⟨h.user, h.own⟩

theorem reach_srcs {c P s tr} (h : Reach c P s tr) : Srcs c s tr := by
  induction h with
  | init cond =>
    unfold init
    split
    · next hu => exact ⟨fun _ _ => rfl, fun h => by rw [hu] at h; cases h⟩
    · refine ⟨fun x hx => ?_, fun _ => by simp⟩
      next hu => simp [Cfg.users, hu] at hx; simp [registered, hx]
  | step hr _ hs ih => exact next_srcs (step_next hs).2 (reach_pcOk hr) ih

end Polling.KqM
