import Verif.Props.KqDelivery

/-! C55: edge-triggered delivery, kqueue. -/

namespace Polling.C55
open KqM Kqueue KqSpec

/-- The histories of the kqueue poller: what was done and what was observed, newest first. -/
inductive KqHist (c : Cfg) : S → List (Act × KObs) → Prop
  | init (cond) : KqHist c (KqM.init c cond) []
  | step {s h t a s' o} : KqHist c s h → KqM.step c s t a = some (s', o) → KqHist c s' ((a, o) :: h)

/-- The observations of a history. -/
abbrev kqSeen (h : List (Act × KObs)) : List KObs := h.map Prod.snd

/-- There is news of the filter `f`: since the last batch that contained it, the OS accepted a registration of it, or its
file signalled its condition (anew). -/
def KqNews (f : Filter) : List (Act × KObs) → Prop
  | [] => False
  | (a, o) :: h =>
    match a, o with
    | .cond g (some _), _ => g = f ∨ KqNews f h
    | _, .armed _ g _ _ _ => g = f ∨ KqNews f h
    | _, .disarmed _ g => g ≠ f ∧ KqNews f h
    | _, .deliver _ evs => f ∉ evs.map KEvent.filter ∧ KqNews f h
    | _, _ => KqNews f h

theorem KqHist.reach {c s h} (hh : KqHist c s h) : Reach c Any s (kqSeen h) := by
  induction hh with
  | init cond => exact .init cond
  | step _ hs ih => exact .step ih trivial hs

theorem kqnews_same {f : Filter} (a : Act) (o : KObs) (h) (ha : ∀ v, a ≠ Act.cond f (some v)) (h1 : ∀ u key x y, o ≠ KObs.armed u f key x y)
    (h2 : ∀ u, o ≠ .disarmed u f) (h3 : ∀ u evs, o ≠ .deliver u evs) : KqNews f ((a, o) :: h) ↔ KqNews f h := by
  by_cases hsr : ∃ g v, a = .cond g (some v)
  · obtain ⟨g, v, rfl⟩ := hsr
    have hg : g ≠ f := by rintro rfl; exact ha v rfl
    simp [KqNews, hg]
  · cases o with
    | armed u g key x y =>
      have hg : g ≠ f := by rintro rfl; exact h1 u key x y rfl
      cases a with
      | cond g' v => cases v with
        | none => simp [KqNews, hg]
        | some v => exact absurd ⟨_, _, rfl⟩ hsr
      | _ => simp [KqNews, hg]
    | disarmed u g =>
      have hg : g ≠ f := by rintro rfl; exact h2 u rfl
      cases a with
      | cond g' v => cases v with
        | none => simp [KqNews, hg]
        | some v => exact absurd ⟨_, _, rfl⟩ hsr
      | _ => simp [KqNews, hg]
    | deliver u evs => exact absurd rfl (h3 u evs)
    | _ =>
      cases a with
      | cond g' v => cases v with
        | none => exact Iff.rfl
        | some v => exact absurd ⟨_, _, rfl⟩ hsr
      | _ => exact Iff.rfl

theorem kqready_user {c : Cfg} {k : Kern} {f : Filter} (hi : c.internal f = false) : ready c k f = k.cond f := by
  unfold ready
  unfold Cfg.internal at hi
  cases hcu : c.user with
  | true => rw [hcu] at hi; simp at hi; simp [hi]
  | false => rw [hcu] at hi; simp at hi; simp [hi]

/-- Only filters with news are active, unless level-triggered; and all that need be. -/
theorem kqueue_active {c : Cfg} {s h} (hh : KqHist c s h) (f : Filter) (hi : c.internal f = false) :
    (f ∈ s.k.queue → lvl s.k.knotes f = false → KqNews f h) ∧
    (KqNews f h → isUser f = false → (s.k.knotes f).isSome = true → (s.k.cond f).isSome = true → f ∈ s.k.queue) := by
  induction hh with
  | init cond =>
    refine ⟨fun hq => ?_, fun hn => hn.elim⟩
    have hk := (reach_ki (Reach.init (c := c) (P := Any) cond)).known f hq
    have hm := reach_match (Reach.init (c := c) (P := Any) cond) f hi
    cases hn : (KqM.init c cond).k.knotes f with
    | none => rw [hn] at hk; cases hk
    | some n => rw [hn] at hm; exact hm.elim
  | @step s h t a s' o hh hs ih =>
    have hr := hh.reach
    have hki := reach_ki hr
    have hn := (step_next hs).2
    have hpt := reach_pcOk hr t
    -- steps that touch neither the knote, nor its condition, nor the queue
    have same : s'.k.knotes = s.k.knotes → s'.k.cond = s.k.cond → s'.k.queue = s.k.queue → (∀ v, a ≠ Act.cond f (some v)) → (∀ u key x y, o ≠ KObs.armed u f key x y) → (∀ u, o ≠ .disarmed u f) →
        (∀ u evs, o ≠ .deliver u evs) → (f ∈ s'.k.queue → lvl s'.k.knotes f = false → KqNews f ((a, o) :: h)) ∧
        (KqNews f ((a, o) :: h) → isUser f = false → (s'.k.knotes f).isSome = true → (s'.k.cond f).isSome = true → f ∈ s'.k.queue) := by
      intro hk hk2 hk3 ha h1 h2 h3
      rw [hk, hk2, hk3, kqnews_same _ _ _ ha h1 h2 h3]; exact ih
    cases hn with
    | @change fault w ev todo done errno k hp hf0 hreg =>
      have hreg' := register_reg hreg
      have henv := reg_env hreg'
      dsimp only
      by_cases e : f = ev.filter
      · subst e
        rw [hp] at hpt
        have had : ev.flags.add = true ∨ ev.flags.delete = true := by
          by_cases hw : ∃ call, w = .call call
          · obtain ⟨call, rfl⟩ := hw
            exact (changes_filter hpt.1 (head_change hpt)).2.2.2
          · have := own_filter hpt.1 (fun call hc => hw ⟨call, hc⟩) (head_change hpt)
            rw [hi] at this; cases this
        have quiet : errno ≠ 0 → (KqNews ev.filter ((.change fault, changeObs t ev errno) :: h) ↔ KqNews ev.filter h) := by
          intro hne
          unfold changeObs
          rw [if_pos hne]
          exact kqnews_same (.change fault) (.refused t ev.filter errno) h nofun nofun nofun nofun
        cases hreg' with
        | fault hfe => rw [quiet (by rintro rfl; exact hf0 hfe)]; exact ih
        | missing => rw [quiet (by decide)]; exact ih
        | add _ ha hfi =>
          have : changeObs t ev 0 = .armed t ev.filter ev.udata ev.flags.oneshot ev.flags.clear := by simp [changeObs, ha]
          rw [this]
          refine ⟨fun _ _ => .inl rfl, fun _ _ _ _ => ?_⟩
          rw [activate_mem]; right; simp [setKnote]
        | addIdle _ ha hfi =>
          have : changeObs t ev 0 = .armed t ev.filter ev.udata ev.flags.oneshot ev.flags.clear := by simp [changeObs, ha]
          rw [this]
          refine ⟨fun _ _ => .inl rfl, fun _ hu _ hc => ?_⟩
          rw [fires_eq hu, kqready_user hi] at hfi
          have hc' : (s.k.cond ev.filter).isSome = true := hc
          rw [hfi] at hc'; cases hc'
        | delete _ ha hd =>
          have : changeObs t ev 0 = .disarmed t ev.filter := by simp [changeObs, ha]
          rw [this]
          refine ⟨fun hq => ?_, fun hn => absurd rfl hn.1⟩
          simp at hq
        | nothing _ ha hd => rcases had with h | h <;> simp_all
      · have ho := reg_other hreg' e
        have hl : lvl k.knotes f = lvl s.k.knotes f := by unfold lvl; rw [ho.1]
        have hN : KqNews f ((.change fault, changeObs t ev errno) :: h) ↔ KqNews f h := by
          apply kqnews_same (.change fault) (changeObs t ev errno) h nofun
          · intro u key x y hx; unfold changeObs at hx; split at hx
            · cases hx
            · split at hx <;> cases hx; exact e rfl
          · intro u hx; unfold changeObs at hx; split at hx
            · cases hx
            · split at hx <;> cases hx; exact e rfl
          · intro u evs hx; unfold changeObs at hx; split at hx
            · cases hx
            · split at hx <;> cases hx
        rw [hN, ho.2, hl, ho.1, henv.1]
        exact ih
    | @kevent timed cap evs k hp hhv hor =>
      obtain ⟨pre, rest, _, _, _, hb⟩ := harvest_batch hki.nodup hhv
      have hd := deliver_filters hb hi
      dsimp only
      have hN : ∀ l, KqNews f ((.kevent, .deliver t l) :: h) ↔ f ∉ l.map KEvent.filter ∧ KqNews f h := fun l => Iff.rfl
      rw [hN, hd]
      generalize pre.filter (hot c (ready c s.k) s.k.knotes) = took at hb hd
      constructor
      · intro hq hl
        have hq' := hb.queue f hq
        have hnt : f ∉ took := by
          intro hm
          have h1 := hq'.2 hm
          unfold lvl at h1 hl
          rw [hb.knotes] at hl
          simp only [if_pos hm] at hl
          cases hkn : s.k.knotes f with
          | none => rw [hkn] at h1; cases h1
          | some n =>
            rw [hkn] at h1 hl
            have ho : n.oneshot = false := by
              simp only [Option.any_some, Bool.and_eq_true, Bool.not_eq_true'] at h1; exact h1.1
            simp only [reported, Option.filter, ho] at hl
            simp only [Bool.not_false, if_true] at hl
            rw [hl] at h1; cases h1
        refine ⟨hnt, ih.1 hq'.1 ?_⟩
        unfold lvl at hl ⊢
        rw [hb.knotes] at hl
        simpa only [if_neg hnt] using hl
      · rintro ⟨hnt, hn⟩ hu hkn hc
        rw [hb.knotes] at hkn
        simp only [if_neg hnt] at hkn
        rw [hb.env.1] at hc
        have hq := ih.2 hn hu hkn hc
        refine hb.stays f hq ?_ (.inl hnt)
        unfold hot
        cases hx : s.k.knotes f with
        | none => rw [hx] at hkn; cases hkn
        | some n => rw [kqready_user hi]; simp [hc]
    | write hp =>
      have hne : f ≠ .read c.notifFd := by
        rintro rfl
        rw [hp] at hpt
        have hu : c.user = false := hpt
        simp [Cfg.internal, hu] at hi
      dsimp only
      rw [kqnews_same (.write false) (.notified t) h nofun nofun nofun nofun, activate_mem, activate_knotes, activate_cond]
      simpa [hne] using ih
    | @raise g v hg =>
      dsimp only
      by_cases e : g = f
      · subst e
        refine ⟨fun _ _ => .inl rfl, fun _ _ hkn _ => ?_⟩
        rw [activate_knotes] at hkn
        rw [activate_mem]; exact .inr ⟨rfl, hkn⟩
      · have e' : f ≠ g := fun h => e h.symm
        rw [kqnews_same (.cond g (some v)) .tau h (by rintro v' hx; cases hx; exact e rfl) nofun nofun nofun, activate_mem, activate_knotes, activate_cond]
        simpa [e'] using ih
    | @fall g hg =>
      dsimp only
      rw [kqnews_same (f := f) (.cond g none) .tau h nofun nofun nofun nofun]
      refine ⟨ih.1, fun hn hu hkn hc => ih.2 hn hu hkn ?_⟩
      split at hc
      · cases hc
      · exact hc
    | _ => exact same rfl rfl rfl (fun _ h => by first | (cases h; done) | (cases h; rename_i hf; cases hf)) (fun _ _ _ _ h => by cases h) (fun _ h => by cases h) (fun _ _ h => by cases h)

/-- The registration of a delivered filter, and that it was active. -/
theorem kq_took {c : Cfg} {s s' : S} {tr t a u evs} (hr : Reach c Any s tr) (hs : KqM.step c s t a = some (s', .deliver u evs))
    {f : Filter} (hin : f ∈ evs.map KEvent.filter) : c.internal f = false ∧ f ∈ s.k.queue := by
  rw [List.mem_map] at hin
  obtain ⟨e, he, rfl⟩ := hin
  obtain ⟨_, _, _, _, _, hi, _⟩ := delivered hr hs he
  obtain ⟨_, _, timed, cap, all, took, _, _, hb, rfl⟩ := deliver_inv hs (reach_ki hr)
  exact ⟨hi, (hb.queued _ ((deliver_filters hb hi).1 (List.mem_map.2 ⟨e, he, rfl⟩))).1⟩

/-- In every history of the kqueue poller, a batch contains a filter watched in edge-triggered or one-shot mode at most
once, and only if there is news of it: since it was last in a batch, a registration of it was accepted, or its file
signalled its condition anew. -/
theorem kqueue_edge_only_news (c : Cfg) (s s' : S) (h : List (Act × KObs)) (hh : KqHist c s h) (t u : Tid) (a : Act)
    (evs : List KEvent) (hs : KqM.step c s t a = some (s', .deliver u evs)) (f : Filter) (w : Watch)
    (hw : watch c.keepMode (kqSeen h) f = some w) (hm : w.clear = true ∨ w.oneshot = true) (hin : f ∈ evs.map KEvent.filter) :
    KqNews f h ∧ (evs.map KEvent.filter).count f = 1 := by
  obtain ⟨hi, hq⟩ := kq_took hh.reach hs hin
  refine ⟨(kqueue_active hh f hi).1 hq ?_, ?_⟩
  · have hmt := reach_match hh.reach f hi
    rw [hw] at hmt
    unfold lvl
    cases hn : s.k.knotes f with
    | none => rfl
    | some n =>
      rw [hn] at hmt
      obtain ⟨_, _, h3, h4⟩ := hmt
      rcases hm with hm | hm
      · rw [hm] at h4; simp at h4; simp [h4]
      · rw [hm] at h3; simp [h3]
  · rw [(delivered_once hh.reach hs).count, if_pos hin]

/-- News of a watched filter, whatever the mode, makes it active while its condition holds. -/
theorem kqueue_news_waiting (c : Cfg) (s : S) (h : List (Act × KObs)) (hh : KqHist c s h) (f : Filter) (hi : c.internal f = false)
    (huf : isUser f = false) (w : Watch) (hw : watch c.keepMode (kqSeen h) f = some w) (hg : w.gone = false) (hn : KqNews f h)
    (hc : (s.k.cond f).isSome = true) : C16.Waiting s.k f := by
  have hm := reach_match hh.reach f hi
  rw [hw] at hm
  cases hk : s.k.knotes f with
  | none => rw [hk] at hm; have : w.gone = true := hm; rw [hg] at this; cases this
  | some n => exact ⟨(kqueue_active hh f hi).2 hn huf (by rw [hk]; rfl) hc, ⟨n, hk⟩, hc⟩

/-- The news is not lost: a batch contains every watched filter (in any mode) of which there is news and whose condition
holds, with its key, unless the buffer is filled completely by others. -/
theorem kqueue_edge_not_lost (c : Cfg) (s s' : S) (h : List (Act × KObs)) (hh : KqHist c s h) (t : Tid) (a : Act)
    (evs : List KEvent) (hs : KqM.step c s t a = some (s', .deliver t evs)) (f : Filter) (hi : c.internal f = false)
    (huf : isUser f = false) (w : Watch) (hw : watch c.keepMode (kqSeen h) f = some w) (hg : w.gone = false) (hn : KqNews f h)
    (hc : (s.k.cond f).isSome = true) :
    (∃ e ∈ evs, e.filter = f ∧ e.udata = w.key) ∨
    ∃ timed cap all, s.pc t = .wKev timed cap ∧ harvest c s.k cap = (all, s'.k) ∧ all.length = cap := by
  obtain ⟨hq, ⟨n, hk⟩, _⟩ := kqueue_news_waiting c s h hh f hi huf w hw hg hn hc
  obtain ⟨_, _, timed, cap, all, took, hpc, hv, hb, rfl⟩ := deliver_inv hs (reach_ki hh.reach)
  by_cases hl : took.length < cap
  · left
    have hf := hb.complete hl f hq (by unfold hot; rw [hk, kqready_user hi]; simp [hc])
    obtain ⟨e, he, hef⟩ := List.mem_map.1 ((deliver_filters hb hi).2 hf)
    refine ⟨e, he, hef, ?_⟩
    obtain ⟨w', hw', _, hkey, _⟩ := delivered hh.reach hs he
    rw [hef, hw] at hw'
    cases hw'; exact hkey
  · right
    refine ⟨timed, cap, all, hpc, hv, ?_⟩
    rw [hb.evs, List.length_map]
    have := hb.room
    omega

/-- And no `wait` sleeps on such news. -/
theorem kqueue_edge_not_asleep (c : Cfg) (s : S) (h : List (Act × KObs)) (hh : KqHist c s h) (t : Tid) (timed : Bool) (cap : Nat)
    (hpc : s.pc t = .wKev timed cap) (f : Filter) (hi : c.internal f = false) (huf : isUser f = false) (w : Watch)
    (hw : watch c.keepMode (kqSeen h) f = some w) (hg : w.gone = false) (hn : KqNews f h) (hc : (s.k.cond f).isSome = true) :
    ∃ s' evs, KqM.step c s t .kevent = some (s', .deliver t evs) := by
  obtain ⟨hq, ⟨n, hk⟩, _⟩ := kqueue_news_waiting c s h hh f hi huf w hw hg hn hc
  exact kevent_enabled hh.reach hpc hq (by unfold hot; rw [hk, kqready_user hi]; simp [hc])

/-- Nor do other filters starve it: while the condition lasts, it is delivered before as many batches are taken as
filters are active before it. -/
theorem kqueue_edge_not_starved (c : Cfg) (s s' : S) (h : List (Act × KObs)) (hh : KqHist c s h) (f : Filter)
    (hi : c.internal f = false) (huf : isUser f = false) (w : Watch) (hw : watch c.keepMode (kqSeen h) f = some w)
    (hg : w.gone = false) (hn : KqNews f h) (hc : (s.k.cond f).isSome = true) (acts : List (Tid × Act)) (obs : List KObs)
    (hrun : runActs c s acts = some (s', obs)) (h1 : ∀ u key x y, .armed u f key x y ∉ obs) (h2 : ∀ u, .disarmed u f ∉ obs)
    (h3 : ∀ u evs, .deliver u evs ∈ obs → f ∉ evs.map KEvent.filter) (h4 : ∀ u, (u, .cond f none) ∉ acts) :
    C16.kqDeliveries obs ≤ s.k.queue.idxOf f :=
  C16.kqueue_not_starved c Any f hi acts s s' _ obs hh.reach (fun _ _ _ => trivial) hrun
    (kqueue_news_waiting c s h hh f hi huf w hw hg hn hc) h1 h2 h3 h4

/-- Descriptor 7 is edge-triggered and readable: reported, then not though still readable, then more data arrives and it
is reported once, then it is modified and reported once more. -/
example : (C04.trace C04.userCfg (fun f => if f = .read 7 then some false else none)
    (by_ 0 [.call (.add 7 (Event.onlyReadable 5) .edge), .src, .src, .change none, .change none, .eval,
      .wait true 4, .kevent, .finish, .wait true 4, .kevent, .finish, .cond (.read 7) (some false), .wait true 4, .kevent, .finish,
      .wait true 4, .kevent, .finish, .call (.modify 7 (Event.onlyReadable 6) .edge), .src, .change none, .change none, .eval,
      .wait true 4, .kevent, .finish, .wait true 4, .kevent, .finish])).map
      (fun tr => tr.filterMap fun o => match o with | .waitOk _ _ evs => some (evs.map (·.key)) | _ => none) =
    some [[], [6], [], [5], [], [5]] := by decide +kernel

/-- There is news after data arrived, and none after a batch that contained the filter. -/
example (h : List (Act × KObs)) : KqNews (.read 7) ((.cond (.read 7) (some false), .tau) :: h) := .inl rfl
example (h : List (Act × KObs)) (e : KEvent) (he : e.filter = .read 7) : ¬ KqNews (.read 7) ((.kevent, .deliver 0 [e]) :: h) := by
  simp [KqNews, he]

end Polling.C55
