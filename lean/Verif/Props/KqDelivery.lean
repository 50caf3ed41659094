import Verif.Proof.KqTaken
import Verif.Props.KqCalls

/-! Deliveries on kqueue: C03, C15, C16, C19. -/

namespace Polling.C03
open KqM Kqueue KqSpec

/-- Every event a `wait` takes from the kernel carries the key that the kernel accepted last for its filter. -/
theorem kqueue_right_key (c : Cfg) (P) (s : S) (tr : List KObs) (h : Reach c P s tr) :
    EveryDelivery (fun earlier evs => ∀ e ∈ evs, ∃ o cl, lastArm earlier e.filter = some (e.udata, o, cl)) tr := by
  intro later t evs earlier he e hev
  obtain ⟨s0, t', a, s1, hr, _, hs⟩ := reach_split h later _ earlier he
  obtain ⟨w, hw, _, hk, _⟩ := delivered hr hs hev
  obtain ⟨o, cl, h1, _⟩ := (watch_lastArm c.keepMode earlier e.filter).1 w hw
  exact ⟨o, cl, by rw [hk]; exact h1⟩

/-- And that acceptance was due to a registration call in progress which asked for the filter with this key and mode. -/
theorem kqueue_key_is_registered (c : Cfg) (P) (s : S) (tr later earlier : List KObs) (h : Reach c P s tr) (t : Tid) (f : Filter)
    (key : BitVec 64) (o cl : Bool) (he : tr = later ++ .armed t f key o cl :: earlier) (hi : c.internal f = false) :
    ∃ call k m, calling earlier t = some call ∧ wants call f = some (some (k, m)) ∧ key = keyToU64 k ∧ o = oneshotMode m ∧ cl = edgeMode m := by
  obtain ⟨s0, t', a, s1, hr, _, hs⟩ := reach_split h later _ earlier he
  exact armed_by hr hs hi

/-- What `wait` returns is what it took from the kernel, in order, with the keys given back unchanged (those registered with the
reserved key are not shown, see C40). -/
theorem kqueue_returns_taken (c : Cfg) (hok : c.Ok) (P) (s : S) (tr : List KObs) (t : Tid) (n : Nat) (evs : List (Event EventExtra))
    (h : Reach c P s (.waitOk t n evs :: tr)) :
    evs = ((taken tr t).map toEvent).filter (fun ev => ev.key != NOTIFY_KEY) ∧ n = evs.length ∧
      ∀ e ∈ taken tr t, keyToU64 (toEvent e).key = e.udata := by
  obtain ⟨s0, t', a, s1, hr, _, hs⟩ := reach_split h [] _ tr rfl
  have hn := (step_next hs).2
  generalize ho : KObs.waitOk t n evs = o at hn
  cases hn with
  | @finish raw hp =>
    injection ho with h1 h2 h3
    subst h1 h2 h3
    obtain ⟨h4, h5⟩ := reach_bufs hok hr t raw (by rw [hp]; rfl)
    refine ⟨?_, rfl, ?_⟩
    · rw [visible_user h5, h4]; rfl
    · intro e _
      simp [toEvent, keyToU64, u64ToKey]
  | change => unfold changeObs at ho; split at ho; cases ho; split at ho <;> cases ho
  | _ => cases ho

/-- `modify` changes the key while a `wait` is in progress: the event carries the new one. -/
example : C04.trace C04.pairCfg (fun f => if f = .read 7 then some false else none)
    (by_ 0 [.wait false 4] ++ by_ 1 [.call (.add 7 (Event.onlyReadable 5) .level), .src, .src, .change none, .change none, .eval,
      .call (.modify 7 (Event.onlyReadable 0xFFFFFFFFFFFFFFFE) .level), .src, .change none] ++
      by_ 0 [.kevent, .read false, .src, .change none, .change none, .eval, .finish]) =
    some [.waitOk 0 1 [⟨0xFFFFFFFFFFFFFFFE, true, false, ⟨⟩⟩], .tau, .refused 0 (.write 3) 2, .armed 0 (.read 3) (keyToU64 NOTIFY_KEY) true false,
      .tau, .tau, .deliver 0 [{ filter := .read 7, flags := {}, udata := 0xFFFFFFFFFFFFFFFE#64 }],
      .armed 1 (.read 7) 0xFFFFFFFFFFFFFFFE#64 false false, .tau, .begin 1 (.modify 7 (Event.onlyReadable 0xFFFFFFFFFFFFFFFE) .level),
      .ret 1 (.add 7 (Event.onlyReadable 5) .level) (.res .ok), .refused 1 (.write 7) 2, .armed 1 (.read 7) 5#64 false false, .tau,
      .inserted 1 (.fd 7), .begin 1 (.add 7 (Event.onlyReadable 5) .level), .waitBegin 0] := by decide +kernel

end Polling.C03

namespace Polling.C15
open KqM Kqueue KqSpec

/-- A filter that was delivered while watched in one-shot mode is not delivered again until a registration call arms it. -/
theorem kqueue_delivered_once (c : Cfg) (P) (s : S) (l3 l2 l1 : List KObs) (t1 t2 : Tid) (evs1 evs2 : List KEvent) (f : Filter) (w : Watch)
    (h : Reach c P s (l3 ++ .deliver t2 evs2 :: (l2 ++ .deliver t1 evs1 :: l1))) (h1 : f ∈ evs1.map KEvent.filter)
    (h2 : f ∈ evs2.map KEvent.filter) (hw : watch c.keepMode l1 f = some w) (ho : w.oneshot = true) : ∃ o ∈ l2, arms f o = true := by
  apply Classical.byContradiction
  intro hne
  have hno : ∀ o ∈ l2, arms f o = false := by
    intro o ho
    cases ha : arms f o with
    | false => rfl
    | true => exact absurd ⟨o, ho, ha⟩ hne
  obtain ⟨s0, t', a, s1, hr, _, hs⟩ := reach_split h l3 _ _ rfl
  rw [List.mem_map] at h2
  obtain ⟨e, he, rfl⟩ := h2
  obtain ⟨w', hw', hg, _⟩ := delivered hr hs he
  have := watch_stays_gone c.keepMode e.filter (.deliver t1 evs1 :: l1) (by
    intro x hx
    simp only [watch, hw, Option.map_some, if_pos h1] at hx
    cases hx
    simp [Watch.gone, ho]) l2 hno w' hw'
  rw [this] at hg; cases hg

/-- One-shot mode on kqueue, where the kernel takes a new mode over (`keepMode` is false): if the latest accepted change armed the
filter in one-shot mode (`Oneshot` or `EdgeOneshot`), then after one delivery it is not delivered again until it is armed. -/
theorem kqueue_oneshot (c : Cfg) (P) (s : S) (l3 l2 l1 : List KObs) (t1 t2 : Tid) (evs1 evs2 : List KEvent) (f : Filter) (key : BitVec 64) (cl : Bool)
    (h : Reach c P s (l3 ++ .deliver t2 evs2 :: (l2 ++ .deliver t1 evs1 :: l1))) (h1 : f ∈ evs1.map KEvent.filter)
    (h2 : f ∈ evs2.map KEvent.filter) (ha : lastArm l1 f = some (key, true, cl)) (hk : c.keepMode f = false) : ∃ o ∈ l2, arms f o = true := by
  cases hw : watch c.keepMode l1 f with
  | none => rw [(watch_lastArm c.keepMode l1 f).2 hw] at ha; cases ha
  | some w =>
    obtain ⟨o, cl', h3, h4⟩ := (watch_lastArm c.keepMode l1 f).1 w hw
    rw [ha] at h3
    injection h3 with h3
    injection h3 with _ h3
    injection h3 with h3 _
    refine kqueue_delivered_once c P s l3 l2 l1 t1 t2 evs1 evs2 f w h h1 h2 hw ?_
    rw [← (h4 hk).1, ← h3]

/-- Within one `wait` no filter is delivered twice. -/
theorem kqueue_once_per_wait (c : Cfg) (P) (s : S) (tr : List KObs) (h : Reach c P s tr) :
    EveryDelivery (fun _ evs => (evs.map KEvent.filter).Nodup) tr := by
  intro later t evs earlier he
  obtain ⟨s0, t', a, s1, hr, _, hs⟩ := reach_split h later _ earlier he
  exact delivered_once hr hs

/-- Where the kernel keeps the mode of a watched filter, one-shot mode holds if the filter was not watched when it was armed
(so for instance always re-arming after a delivery).  Missing: arming it over a watch in another mode, where it is violated,
see `C21.kqueue_mode_kept`. -/
theorem kqueue_oneshot_kept_partial (c : Cfg) (P) (s : S) (l3 l2 l1 l0 : List KObs) (t0 t1 t2 : Tid) (evs1 evs2 : List KEvent) (f : Filter)
    (key0 : BitVec 64) (cl : Bool) (h : Reach c P s (l3 ++ .deliver t2 evs2 :: (l2 ++ .deliver t1 evs1 :: (l1 ++ .armed t0 f key0 true cl :: l0))))
    (h1 : f ∈ evs1.map KEvent.filter) (h2 : f ∈ evs2.map KEvent.filter) (hw : ∀ w, watch c.keepMode l0 f = some w → w.gone = true)
    (hl1 : ∀ o ∈ l1, arms f o = false) : ∃ o ∈ l2, arms f o = true := by
  have key : ∀ l : List KObs, (∀ o ∈ l, arms f o = false) → ∀ w, watch c.keepMode (l ++ .armed t0 f key0 true cl :: l0) f = some w → w.oneshot = true := by
    intro l
    induction l with
    | nil =>
      intro _ w hw'
      simp only [List.nil_append, watch, if_true] at hw'
      cases hx : watch c.keepMode l0 f with
      | none => rw [hx] at hw'; cases hw'; rfl
      | some w0 =>
        rw [hx] at hw'
        simp only [hw w0 hx, Bool.not_true, Bool.and_false, Bool.false_eq_true, if_false] at hw'
        cases hw'; rfl
    | cons o l ih =>
      intro ha w hw'
      have ih := ih fun o ho => ha o (by simp [ho])
      have ho := ha o (by simp)
      rw [List.cons_append] at hw'
      cases o with
      | armed u g key o cl =>
        have e : f ≠ g := by rintro rfl; simp [arms] at ho
        simp only [watch, if_neg e] at hw'
        exact ih w hw'
      | disarmed u g =>
        simp only [watch] at hw'
        split at hw'
        · cases hw'
        · exact ih w hw'
      | deliver u evs =>
        simp only [watch, Option.map_eq_some_iff] at hw'
        obtain ⟨w', hw', rfl⟩ := hw'
        have := ih w' hw'
        split <;> exact this
      | _ => exact ih w hw'
  obtain ⟨s0, t', a, s1, hr, _, hs⟩ := reach_split h (l3 ++ .deliver t2 evs2 :: l2) (.deliver t1 evs1) (l1 ++ .armed t0 f key0 true cl :: l0) (by simp)
  have h1' := h1
  rw [List.mem_map] at h1'
  obtain ⟨e, he, rfl⟩ := h1'
  obtain ⟨w', hw', hg, _⟩ := delivered hr hs he
  exact kqueue_delivered_once c P s l3 l2 _ t1 t2 evs1 evs2 _ w' h h1 h2 hw' (key l1 hl1 w' hw')

/-- Delivered, not delivered again though still ready, armed again, delivered again. -/
example : (C04.trace C04.userCfg (fun f => if f = .read 7 then some false else none)
    (by_ 0 [.call (.add 7 (Event.onlyReadable 5) .oneshot), .src, .src, .change none, .change none, .eval,
      .wait true 4, .kevent, .finish, .wait true 4, .kevent, .finish, .call (.modify 7 (Event.onlyReadable 6) .oneshot), .src, .change none, .change none, .eval,
      .wait true 4, .kevent, .finish])).map (fun tr => tr.filterMap fun o => match o with | .waitOk _ _ evs => some (evs.map (·.key)) | _ => none) =
    some [[6], [], [5]] := by decide +kernel

end Polling.C15

namespace Polling.C16
open KqM Kqueue KqSpec

/-- Level mode: a filter that is watched in level mode, and whose condition holds, is in every batch a `wait` takes, unless the
batch fills the user's buffer. -/
theorem kqueue_level (c : Cfg) (P) (s s' : S) (tr : List KObs) (h : Reach c P s tr) (t : Tid) (a : Act) (evs : List KEvent)
    (hs : step c s t a = some (s', .deliver t evs)) (f : Filter) (hi : c.internal f = false) (huf : isUser f = false) (w : Watch)
    (hw : watch c.keepMode tr f = some w) (ho : w.oneshot = false) (hc : w.clear = false) (hac : c.autoClear f = false)
    (hcond : (s.k.cond f).isSome = true) :
    (∃ e ∈ evs, e.filter = f ∧ e.udata = w.key) ∨
    ∃ timed cap all, s.pc t = .wKev timed cap ∧ harvest c s.k cap = (all, s'.k) ∧ all.length = cap := by
  rcases deliver_complete h hs hi huf hw (by simp [Watch.gone, ho]) hc hac hcond with ⟨e, he, hf⟩ | hx
  · left
    refine ⟨e, he, hf, ?_⟩
    obtain ⟨w', hw', _, hk, _⟩ := delivered h hs he
    rw [hf, hw] at hw'
    cases hw'; exact hk
  · exact .inr hx

/-- And the `wait` does not sleep then. -/
theorem kqueue_level_not_asleep (c : Cfg) (P) (s : S) (tr : List KObs) (h : Reach c P s tr) (t : Tid) (timed : Bool) (cap : Nat)
    (hpc : s.pc t = .wKev timed cap) (f : Filter) (hi : c.internal f = false) (huf : isUser f = false) (w : Watch)
    (hw : watch c.keepMode tr f = some w) (hg : w.gone = false) (hc : w.clear = false) (hac : c.autoClear f = false)
    (hcond : (s.k.cond f).isSome = true) : ∃ s' evs, step c s t .kevent = some (s', .deliver t evs) := by
  have hm := reach_match h f hi
  rw [hw] at hm
  cases hn : s.k.knotes f with
  | none => rw [hn] at hm; have : w.gone = true := hm; rw [hg] at this; cases this
  | some n =>
    rw [hn] at hm
    obtain ⟨_, h2, h3, h4⟩ := hm
    have hrd : ready c s.k f = s.k.cond f := by
      unfold ready
      unfold Cfg.internal at hi
      cases hcu : c.user with
      | true => rw [hcu] at hi; simp at hi; simp [hi]
      | false => rw [hcu] at hi; simp at hi; simp [hi]
    have hq : f ∈ s.k.queue := (reach_ki h).live f n hn (by rw [h4, hc, hac]; rfl) huf (by rw [hrd]; exact hcond)
    exact kevent_enabled h hpc hq (by unfold hot; rw [hn, hrd]; simp [hcond])

/-- The number of `kevent` calls that took something. -/
def kqDeliveries : List KObs → Nat
  | [] => 0
  | .deliver _ _ :: l => kqDeliveries l + 1
  | _ :: l => kqDeliveries l

theorem idxOf_after {f x : Filter} (e : x ≠ f) (l : List Filter) : (x :: l).idxOf f = l.idxOf f + 1 := by
  have : (x == f) = false := by rw [beq_eq_false_iff_ne]; exact e
  rw [List.idxOf_cons, this]; rfl

theorem idxOf_left {f : Filter} {l l' : List Filter} (h : f ∈ l) : (l ++ l').idxOf f = l.idxOf f := by
  rw [List.idxOf_append, if_pos h]

theorem idxOf_right {f : Filter} {l l' : List Filter} (h : f ∉ l) : (l ++ l').idxOf f = l'.idxOf f + l.length := by
  rw [List.idxOf_append, if_neg h]

theorem idxOf_filter_le {f : Filter} {p : Filter → Bool} (hp : p f = true) (l : List Filter) : (l.filter p).idxOf f ≤ l.idxOf f := by
  induction l with
  | nil => simp
  | cons x l ih =>
    by_cases e : x = f
    · subst e; simp [hp]
    · rw [idxOf_after e l]
      rw [List.filter_cons]
      split
      · rw [idxOf_after e]; omega
      · omega

/-- Watched, queued, ready. -/
structure Waiting (k : Kern) (f : Filter) : Prop where
  queued : f ∈ k.queue
  watched : ∃ n, k.knotes f = some n
  ready : (k.cond f).isSome = true

theorem idxOf_activate {k : Kern} {f g : Filter} (h : f ∈ k.queue) : (activate k g).queue.idxOf f = k.queue.idxOf f := by
  unfold activate
  split
  · exact idxOf_left h
  · rfl

/-- Nobody overtakes. -/
theorem next_waiting {c P s tr t a s' o} {f : Filter} (hr : Reach c P s tr) (hn : Next c s t a s' o) (hi : c.internal f = false) (h : Waiting s.k f)
    (hna : ∀ u key x y, o ≠ .armed u f key x y) (hnd : ∀ u, o ≠ .disarmed u f) (hev : ∀ u evs, o = .deliver u evs → f ∉ evs.map KEvent.filter)
    (hcond : a ≠ .cond f none) :
    Waiting s'.k f ∧ s'.k.queue.idxOf f + kqDeliveries [o] ≤ s.k.queue.idxOf f := by
  obtain ⟨hq, ⟨n, hkn⟩, hc⟩ := h
  cases hn with
  | @change fault w ev todo done errno k hp hf0 hreg =>
    have hreg' := register_reg hreg
    have hz : kqDeliveries [changeObs t ev errno] = 0 := by unfold changeObs; split; rfl; split <;> rfl
    rw [hz]
    dsimp only
    have henv := reg_env hreg'
    by_cases e : f = ev.filter
    · subst e
      cases hreg' with
      | fault => exact ⟨⟨hq, ⟨n, hkn⟩, hc⟩, Nat.le_refl _⟩
      | add _ ha => exact absurd (by simp [changeObs, ha]) (hna t ev.udata ev.flags.oneshot ev.flags.clear)
      | addIdle _ ha => exact absurd (by simp [changeObs, ha]) (hna t ev.udata ev.flags.oneshot ev.flags.clear)
      | missing _ _ _ hm => rw [hm] at hkn; cases hkn
      | delete _ ha => exact absurd (by simp [changeObs, ha]) (hnd t)
      | nothing _ ha => exact absurd (by simp [changeObs, ha]) (hnd t)
    · have ho := reg_other hreg' e
      refine ⟨⟨ho.2.2 hq, ⟨n, by rw [ho.1]; exact hkn⟩, by rw [henv.1]; exact hc⟩, ?_⟩
      cases hreg' with
      | fault => exact Nat.le_refl _
      | add => rw [idxOf_activate (k := setKnote _ _ _) hq]; exact Nat.le_refl _
      | addIdle => exact Nat.le_refl _
      | missing => exact Nat.le_refl _
      | delete => exact idxOf_filter_le (by simp [e]) _
      | nothing => exact Nat.le_refl _
  | @kevent timed cap evs k hp hh hor =>
    obtain ⟨pre, rest, h1, h2, h3, hb⟩ := harvest_batch (reach_ki hr).nodup hh
    have hcap : cap > 0 := by have := reach_pcOk hr t; rw [hp] at this; exact this
    have hrd : ready c s.k f = s.k.cond f := by
      unfold ready
      unfold Cfg.internal at hi
      cases hcu : c.user with
      | true => rw [hcu] at hi; simp at hi; simp [hi]
      | false => rw [hcu] at hi; simp at hi; simp [hi]
    have hhot : hot c (ready c s.k) s.k.knotes f = true := by unfold hot; rw [hkn, hrd]; simp [hc]
    have hnt : f ∉ pre.filter (hot c (ready c s.k) s.k.knotes) := by
      intro hm
      exact hev t _ rfl ((deliver_filters hb hi).2 hm)
    have hnp : f ∉ pre := fun hm => hnt (List.mem_filter.2 ⟨hm, hhot⟩)
    have hfr : f ∈ rest := by
      rw [h1, List.mem_append] at hq
      rcases hq with hq | hq
      · exact absurd hq hnp
      · exact hq
    have hlen : pre.length ≥ 1 := by
      rcases h3 with h3 | h3
      · rw [h3] at hfr; cases hfr
      · have := List.length_filter_le (hot c (ready c s.k) s.k.knotes) pre
        omega
    dsimp only
    refine ⟨⟨by rw [h2]; exact List.mem_append_left _ hfr, ⟨n, ?_⟩, by rw [hb.env.1]; exact hc⟩, ?_⟩
    · rw [hb.knotes]; simp only [if_neg hnt]; exact hkn
    · rw [h2, h1, idxOf_left hfr, idxOf_right hnp]
      simp only [kqDeliveries]
      omega
  | write =>
    dsimp only
    refine ⟨⟨by rw [activate_mem]; exact .inl hq, ⟨n, by rw [activate_knotes]; exact hkn⟩, by rw [activate_cond]; exact hc⟩, ?_⟩
    rw [idxOf_activate (k := { s.k with chan := s.k.chan + 1 }) hq]; exact Nat.le_refl _
  | @raise g v hg =>
    dsimp only
    refine ⟨⟨by rw [activate_mem]; exact .inl hq, ⟨n, by rw [activate_knotes]; exact hkn⟩, ?_⟩, ?_⟩
    · rw [activate_cond]; dsimp only; split
      · rfl
      · exact hc
    · rw [idxOf_activate (k := { s.k with cond := fun x => if x = g then some v else s.k.cond x }) hq]; exact Nat.le_refl _
  | @fall g hg =>
    have e : f ≠ g := by rintro rfl; exact hcond rfl
    refine ⟨⟨hq, ⟨n, hkn⟩, ?_⟩, Nat.le_refl _⟩
    dsimp only; rw [if_neg e]; exact hc
  | _ => exact ⟨⟨hq, ⟨n, hkn⟩, hc⟩, Nat.le_refl _⟩

theorem kqDeliveries_append (l1 l2 : List KObs) : kqDeliveries (l1 ++ l2) = kqDeliveries l1 + kqDeliveries l2 := by
  induction l1 with
  | nil => simp [kqDeliveries]
  | cons o l1 ih => cases o <;> simp only [List.cons_append, kqDeliveries, ih] <;> omega

/-- Batches smaller than the set of ready filters: a ready filter (in whatever mode) is not forgotten.  However small the buffers are,
and whatever else is registered, becomes ready or is delivered meanwhile, it is delivered by one of the next waits: the number
of deliveries without it is at most the number of filters queued before it. -/
theorem kqueue_not_starved (c : Cfg) (P) (f : Filter) (hi : c.internal f = false) (acts : List (Tid × Act)) : ∀ (s s' : S) (tr obs : List KObs),
    Reach c P s tr → (∀ s t a, P s t a) → runActs c s acts = some (s', obs) → Waiting s.k f →
    (∀ u key x y, .armed u f key x y ∉ obs) → (∀ u, .disarmed u f ∉ obs) → (∀ u evs, .deliver u evs ∈ obs → f ∉ evs.map KEvent.filter) →
    (∀ u, (u, .cond f none) ∉ acts) → kqDeliveries obs ≤ s.k.queue.idxOf f := by
  induction acts with
  | nil => intro s s' tr obs _ _ h; cases h; intros; exact Nat.zero_le _
  | cons ta acts ih =>
    obtain ⟨t, a⟩ := ta
    intro s s' tr obs hr hP hrun hwt h1 h2 h3 h4
    simp only [runActs, Option.bind_eq_some_iff, Option.map_eq_some_iff] at hrun
    obtain ⟨⟨s1, o⟩, hs, ⟨s2, obs2⟩, hrun2, he⟩ := hrun
    injection he with he1 he2
    subst he1 he2
    have ho : o ∈ obs2 ++ [o] := by simp
    obtain ⟨hw1, hle⟩ := next_waiting hr (step_next hs).2 hi hwt
      (fun u key x y e => h1 u key x y (e ▸ ho)) (fun u e => h2 u (e ▸ ho)) (fun u evs e => h3 u evs (e ▸ ho)) (fun e => h4 t (by simp [e]))
    have := ih s1 s2 (o :: tr) obs2 (.step hr (hP _ _ _) hs) hP hrun2 hw1 (fun u key x y hm => h1 u key x y (by simp [hm]))
      (fun u hm => h2 u (by simp [hm])) (fun u evs hm => h3 u evs (by simp [hm])) (fun u hm => h4 u (by simp [hm]))
    dsimp only
    rw [kqDeliveries_append]
    omega

/-- A filter watched in level mode, or in one-shot mode and not yet delivered, whose condition holds is `Waiting`. -/
theorem kqueue_ready_waiting (c : Cfg) (P) (s : S) (tr : List KObs) (h : Reach c P s tr) (f : Filter) (hi : c.internal f = false)
    (huf : isUser f = false) (w : Watch) (hw : watch c.keepMode tr f = some w) (hg : w.gone = false) (hc : w.clear = false)
    (hac : c.autoClear f = false) (hcond : (s.k.cond f).isSome = true) : Waiting s.k f := by
  have hm := reach_match h f hi
  rw [hw] at hm
  cases hn : s.k.knotes f with
  | none => rw [hn] at hm; have : w.gone = true := hm; rw [hg] at this; cases this
  | some n =>
    rw [hn] at hm
    obtain ⟨_, h2, h3, h4⟩ := hm
    have hrd : ready c s.k f = s.k.cond f := by
      unfold ready
      unfold Cfg.internal at hi
      cases hcu : c.user with
      | true => rw [hcu] at hi; simp at hi; simp [hi]
      | false => rw [hcu] at hi; simp at hi; simp [hi]
    have hq : f ∈ s.k.queue := (reach_ki h).live f n hn (by rw [h4, hc, hac]; rfl) huf (by rw [hrd]; exact hcond)
    exact ⟨hq, ⟨n, hn⟩, hcond⟩

/-- Three ready descriptors in level mode and room for one event: three waits deliver all three. -/
example : (C04.trace C04.userCfg (fun f => if f = .read 7 ∨ f = .read 8 ∨ f = .read 9 then some false else none)
    (by_ 0 ([7, 8, 9].flatMap (fun fd => [.call (.add fd (Event.onlyReadable (BitVec.ofNat 64 fd)) .level), .src, .src, .change none, .change none, .eval]) ++
      [.wait false 1, .kevent, .finish, .wait false 1, .kevent, .finish, .wait false 1, .kevent, .finish, .wait false 1, .kevent, .finish]))).map
      (fun tr => tr.filterMap fun o => match o with | .waitOk _ _ evs => some (evs.map (·.key)) | _ => none) =
    some [[7], [9], [8], [7]] := by decide +kernel

end Polling.C16

namespace Polling.C19
open KqM Kqueue KqSpec

/-- Only filters that the OS accepted to watch, and did not stop watching since, are delivered. -/
theorem kqueue_only_registered (c : Cfg) (P) (s : S) (tr : List KObs) (h : Reach c P s tr) :
    EveryDelivery (fun earlier evs => ∀ e ∈ evs, ∃ w, watch c.keepMode earlier e.filter = some w ∧ w.gone = false) tr := by
  intro later t evs earlier he e hev
  obtain ⟨s0, t', a, s1, hr, _, hs⟩ := reach_split h later _ earlier he
  obtain ⟨w, hw, hg, _⟩ := delivered hr hs hev
  exact ⟨w, hw, hg⟩

/-- After a deletion (or any other call that asks for the filter not to be watched) returned `Ok` (and no other thread changed the filter while it ran), no event of the source is taken
from the kernel until a registration call arms it again; even if it was ready or already queued. -/
theorem kqueue_nothing_after_delete (c : Cfg) (s : S) (l3 l2 l1 : List KObs) (t u : Tid) (call : Call) (evs : List KEvent) (f : Filter)
    (h : Reach c Honest s (l3 ++ .deliver u evs :: (l2 ++ .ret t call (.res .ok) :: l1))) 
    (hf : wants call f = some none) (hu : undisturbed l1 t f = true) (hl : ∀ o ∈ l2, arms f o = false) : f ∉ evs.map KEvent.filter := by
  intro hm
  rw [List.mem_map] at hm
  obtain ⟨e, he, rfl⟩ := hm
  obtain ⟨s0, t', a, s1, hr, _, hs⟩ := reach_split h l3 _ _ rfl
  obtain ⟨w, hw, hg, _⟩ := delivered hr hs he
  obtain ⟨s2, t2, a2, s3, hr2, hP2, hs2⟩ := reach_split h (l3 ++ .deliver u evs :: l2) (.ret t call (.res .ok)) l1 (by simp)
  have hx := (C21.kqueue_call_takes_effect c s3 l1 t call (.step hr2 hP2 hs2) e.filter none hf hu).1 rfl
  have := watch_stays_gone c.keepMode e.filter (.ret t call (.res .ok) :: l1) hx l2 hl w hw
  rw [this] at hg; cases hg

/-- Ready and queued, deleted, not delivered; added again, delivered. -/
example : (C04.trace C04.userCfg (fun f => if f = .read 7 then some false else none)
    (by_ 0 [.call (.add 7 (Event.onlyReadable 5) .level), .src, .src, .change none, .change none, .eval, .wait true 1, .kevent, .finish,
      .call (.delete 7), .src, .change none, .change none, .eval, .src, .eval, .wait true 1, .kevent, .finish,
      .call (.add 7 (Event.onlyReadable 6) .level), .src, .src, .change none, .change none, .eval, .wait true 1, .kevent, .finish])).map
      (fun tr => tr.filterMap fun o => match o with | .waitOk _ _ evs => some (evs.map (·.key)) | _ => none) =
    some [[6], [], [5]] := by decide +kernel

end Polling.C19
