import Verif.Props.KqNotify

/-! C06 (kqueue): notifications are coalesced and consumed by one `wait`. -/

namespace Polling.C06
open KqM Kqueue KqSpec

/-- The steps of one `notify` call of thread `t` without interference. -/
def kqNotifyActs (c : Cfg) (s : S) (t : Tid) : List (Tid × Act) :=
  if s.notified then by_ t [.notifyCas]
  else if c.user then by_ t [.notifyCas, .change none, .eval] else by_ t [.notifyCas, .write false]

/-- `n` such calls, one after the other. -/
def kqNotifies (c : Cfg) (t : Tid) : Nat → S → Option (S × List KObs)
  | 0, s => some (s, [])
  | n + 1, s => (runActs c s (kqNotifyActs c s t)).bind fun r => (kqNotifies c t n r.1).map fun q => (q.1, q.2 ++ r.2)

/-- The OS has nothing to report for the filters of the user. -/
def KqQuiet (c : Cfg) (s : S) : Prop :=
  ∀ f ∈ s.k.queue, c.internal f = false → ∀ n, s.k.knotes f = some n → s.k.cond f = none ∧ (n.oneshot = true → c.recheck = true)

/-- The kernel leaves the user filter with `EV_CLEAR` when `notify` adds it again without. -/
def KeepsClear (c : Cfg) : Prop := c.user = true → c.keepMode (.user 0) = true ∨ c.autoClear (.user 0) = true

/-- The whole `wait` of thread `t`. -/
def kqWaitActs (c : Cfg) (t : Tid) (timed : Bool) (cap m : Nat) : List (Tid × Act) :=
  by_ t (if c.user then [.wait timed cap, .kevent, .finish]
    else [.wait timed cap, .kevent] ++ (List.replicate m (.read false) ++ [.src, .change none, .change none, .eval, .finish]))

theorem userReady {c : Cfg} {k : Kern} {f : Filter} (h : c.internal f = false) : ready c k f = k.cond f := by
  unfold ready
  unfold Cfg.internal at h
  cases hu : c.user with
  | true => rw [hu] at h; simp at h; simp [h]
  | false => rw [hu] at h; simp at h; simp [h]

/-- The user's knote stays edge-triggered. -/
theorem reach_userClear {c P s tr} (hu : c.user = true) (hk : KeepsClear c) (h : Reach c P s tr) :
    ∀ n, s.k.knotes (.user 0) = some n → n.clear = true := by
  induction h with
  | init cond =>
    intro n hn
    unfold init at hn
    rw [if_pos hu] at hn
    have hr := register_reg (c := c) (fault := none) (k := ⟨fun _ => none, [], cond, 0⟩) (ev := userChange false) (Prod.eta _).symm
    have hk := (knote_after hr rfl rfl).1
    have hn' := hk.symm.trans hn
    cases hn'
    rfl
  | @step s tr t a s' o hr hp hs ih =>
    have hpk := reach_pcOk hr t
    have hki := reach_ki hr
    cases (step_next hs).2 with
    | @change fault w ev todo done errno k hpc hf hreg =>
      rw [hpc] at hpk
      cases w with
      | call call =>
        intro n hn
        refine ih n ?_
        rw [← hn]
        exact ((reg_other (register_reg hreg) (call_filter_ne hpk (userInternal hu))).1).symm
      | rearm timed cap evs => have := hpk.1.1; rw [hu] at this; cases this
      | notify =>
        obtain ⟨rfl, rfl, rfl⟩ := notify_change hpk
        intro n hn
        cases hfl : fault with
        | some e =>
          have hk' := register_reg hreg
          cases hk' with
          | fault => exact ih n hn
          | _ => simp_all
        | none =>
          have h1 := (knote_after (register_reg hreg) rfl hfl).1
          have hn' : k.knotes (userChange true).filter = some n := hn
          rw [hn'] at h1
          injection h1 with h1
          rw [h1]
          unfold added
          have hfil : (userChange true).filter = .user 0 := rfl
          rw [hfil]
          split
          · next m hm =>
            split
            · exact ih m hm
            · next hne =>
              rcases hk hu with h2 | h2
              · exact absurd h2 hne
              · simp [h2]
          · next hm =>
            obtain ⟨m, hm', _⟩ := reach_userKnote hu hr
            rw [hm'] at hm; cases hm
    | kevent hpc hh hc =>
      obtain ⟨_, _, _, _, _, hb⟩ := harvest_batch hki.nodup hh
      intro n hn
      simp only [hb.knotes] at hn
      split at hn
      · unfold reported at hn
        rw [Option.filter_eq_some_iff] at hn
        exact ih n hn.1
      · exact ih n hn
    | write => intro n hn; simp only [activate_knotes] at hn; exact ih n hn
    | raise => intro n hn; simp only [activate_knotes] at hn; exact ih n hn
    | _ => exact ih

theorem kqNotify_ok {c : Cfg} {s : S} {tr : List KObs} (h : Reach c Works s tr) {t : Tid} (ht : t < c.threads) (hall : ∀ u, s.pc u = .out)
    (hq : KqQuiet c s) : ∃ s' o, runActs c s (kqNotifyActs c s t) = some (s', o) ∧ Reach c Works s' (o ++ tr) ∧
      (∀ u, s'.pc u = .out) ∧ s'.lib = s.lib ∧ s'.k.cond = s.k.cond ∧ KqQuiet c s' ∧ owed (o ++ tr) = true := by
  have hge : ¬ t ≥ c.threads := by omega
  unfold kqNotifyActs
  by_cases hn : s.notified = true
  · rw [if_pos hn]
    have hs : step c s t .notifyCas = some (s, .notifySeen t) := by
      unfold step; rw [if_neg hge]; simp only [hall]; rw [if_pos hn]
    have hrun := run_cons hs (run_nil c _)
    refine ⟨s, [.notifySeen t], hrun, Reach.step h (works_of rfl) hs, hall, rfl, rfl, hq, rfl⟩
  · rw [if_neg hn]
    cases hu : c.user with
    | true =>
      rw [if_pos rfl]
      have hs1 : step c s t .notifyCas = some ({ s with notified := true, pc := upd s.pc t (.submit .notify [userChange true] []) },
          .notifyBegin t) := by
        unfold step; rw [if_neg hge]; simp only [hall]; rw [if_neg hn]; simp [hu]
      rcases hr : register c none s.k (userChange true) with ⟨errno, k⟩
      have hreg := register_reg hr
      have he : errno = 0 := (knote_after hreg rfl rfl).2.1
      subst he
      have hs2 : step c { s with notified := true, pc := upd s.pc t (.submit .notify [userChange true] []) } t (.change none) =
          some ({ s with k, notified := true, pc := upd s.pc t (.submit .notify [] [receipt (userChange true) 0]) },
            changeObs t (userChange true) 0) := by
        unfold step; rw [if_neg hge]; simp only [upd_self, hr]
        simp only [reduceCtorEq, if_false, List.nil_append, Option.some.injEq, Prod.mk.injEq, and_true, S.mk.injEq, true_and]
        funext u; unfold upd; split <;> rfl
      have hs3 : step c { s with k, notified := true, pc := upd s.pc t (.submit .notify [] [receipt (userChange true) 0]) } t .eval =
          some ({ s with k, notified := true }, .notified t) := by
        unfold step; rw [if_neg hge]; simp only [upd_self, submitted]
        simp only [Option.some.injEq, Prod.mk.injEq, and_true, S.mk.injEq, true_and]
        funext u; unfold upd; split
        · next e => rw [e, hall]
        · rfl
      have hrun := run_cons hs1 (run_cons hs2 (run_cons hs3 (rfl : runActs c _ [] = some (_, []))))
      refine ⟨_, _, hrun, reach_runW h (by_ t [.notifyCas, .change none, .eval]) (by simp [by_, noFault]) _ _ hrun, hall, rfl, (reg_env hreg).1, ?_, ?_⟩
      · intro f hf hi n hkn
        have hne : f ≠ (userChange true).filter := by
          rintro rfl
          rw [show (userChange true).filter = .user 0 from rfl, userInternal hu] at hi; cases hi
        have h1 := reg_other hreg hne
        have := hq f (h1.2.1 hf) hi n (by rw [← h1.1]; exact hkn)
        simp only; rw [(reg_env hreg).1]; exact this
      · simp [owed, begun, changeObs, userChange]
    | false =>
      rw [if_neg (by simp)]
      have hs1 : step c s t .notifyCas = some ({ s with notified := true, pc := upd s.pc t .nWrite }, .notifyBegin t) := by
        unfold step; rw [if_neg hge]; simp only [hall]; rw [if_neg hn]; simp [hu]
      have hs2 : step c { s with notified := true, pc := upd s.pc t .nWrite } t (.write false) =
          some ({ s with k := activate { s.k with chan := s.k.chan + 1 } (.read c.notifFd), notified := true }, .notified t) := by
        unfold step; rw [if_neg hge]; simp only [upd_self]
        simp only [Bool.false_eq_true, if_false, Option.some.injEq, Prod.mk.injEq, and_true, S.mk.injEq, true_and]
        funext u; unfold upd; split
        · next e => rw [e, hall]
        · rfl
      have hrun := run_cons hs1 (run_cons hs2 (rfl : runActs c _ [] = some (_, [])))
      refine ⟨_, _, hrun, reach_runW h (by_ t [.notifyCas, .write false]) (by simp [by_, noFault]) _ _ hrun, hall, rfl, ?_, ?_, ?_⟩
      · simp only [activate_cond]
      · intro f hf hi n hkn
        simp only [activate_knotes, activate_mem, activate_cond] at hf hkn ⊢
        rcases hf with hf | ⟨rfl, _⟩
        · exact hq f hf hi n hkn
        · rw [readInternal hu] at hi; cases hi
      · simp [owed, begun]

theorem kqNotifies_ok {c : Cfg} {t : Tid} (ht : t < c.threads) (n : Nat) {s : S} {tr : List KObs} (h : Reach c Works s tr)
    (hall : ∀ u, s.pc u = .out) (hq : KqQuiet c s) : ∃ s' o, kqNotifies c t n s = some (s', o) ∧ Reach c Works s' (o ++ tr) ∧
      (∀ u, s'.pc u = .out) ∧ s'.lib = s.lib ∧ s'.k.cond = s.k.cond ∧ KqQuiet c s' ∧ (n > 0 ∨ owed tr = true → owed (o ++ tr) = true) := by
  induction n generalizing s tr with
  | zero => exact ⟨s, [], rfl, h, hall, rfl, rfl, hq, fun h => by simpa using h⟩
  | succ n ih =>
    obtain ⟨s1, o1, h1, hr1, ha1, hl1, hc1, hq1, how1⟩ := kqNotify_ok h ht hall hq
    obtain ⟨s2, o2, h2, hr2, ha2, hl2, hc2, hq2, how2⟩ := ih hr1 ha1 hq1
    refine ⟨s2, o2 ++ o1, by simp [kqNotifies, h1, h2], by simpa using hr2, ha2, hl2.trans hl1, hc2.trans hc1, hq2, fun _ => ?_⟩
    rw [List.append_assoc]; exact how2 (.inr how1)

/-- The poller's own events are hidden. -/
theorem visible_own {evs : List KEvent} (h : ∀ e ∈ evs, e.udata = keyToU64 NOTIFY_KEY) : visible evs = [] := by
  unfold visible
  rw [List.filter_eq_nil_iff]
  intro ev hev
  rw [List.mem_map] at hev
  obtain ⟨e, he, rfl⟩ := hev
  simp [toEvent, h e he, keyToU64, u64ToKey, NOTIFY_KEY]

/-- Any number of notifications make exactly one `wait` return.  From every reachable state between calls (whatever was
registered, delivered or notified before, and whatever failed except the notifier's own calls) in which the OS has nothing to report for
the user's filters: after `n ≥ 1` calls of `notify`, a `wait` with or without timeout returns with count 0 and no
events; and after it a `wait(None)` blocks. -/
theorem kqueue_notify_coalesced (c : Cfg) (hok : c.Ok) (hkc : KeepsClear c) (s : S) (tr : List KObs) (h : Reach c Works s tr)
    (hall : ∀ u, s.pc u = .out) (hq : KqQuiet c s) (n : Nat) (hn : n > 0) (t u : Tid) (ht : t < c.threads) (hut : u < c.threads)
    (timed : Bool) (cap cap' : Nat) (hcap : cap > 0) (hcap' : cap' > 0) :
    ∃ s1 o1 m s2 o2 s3, kqNotifies c t n s = some (s1, o1) ∧
      runActs c s1 (kqWaitActs c u timed cap m) = some (s2, .waitOk u 0 [] :: o2) ∧ (∀ v, s2.pc v = .out) ∧
      step c s2 u (.wait false cap') = some (s3, .waitBegin u) ∧ step c s3 u .kevent = none := by
  obtain ⟨s1, o1, h1, hr1, ha1, hl1, hc1, hq1, how1⟩ := kqNotifies_ok ht n h hall hq
  have hge : ¬ u ≥ c.threads := by omega
  have hlib : s1.lib = none := by
    cases hl : s1.lib with
    | none => rfl
    | some v =>
      have := (reach_lib hr1 v).1 hl
      rw [ha1] at this; cases this
  -- into kevent
  have hsw : step c s1 u (.wait timed cap) = some ({ s1 with lib := some u, pc := upd s1.pc u (.wKev timed cap) }, .waitBegin u) := by
    unfold step; rw [if_neg hge]; simp only [ha1]; rw [if_neg (by simp [hlib]), if_neg (by omega)]
  generalize hsa : ({ s1 with lib := some u, pc := upd s1.pc u (.wKev timed cap) } : S) = sa at hsw
  have hra := Reach.step hr1 (works_of rfl) hsw
  have hka : sa.k = s1.k := by rw [← hsa]
  have hpa : sa.pc u = .wKev timed cap := by rw [← hsa]; exact upd_self _ _ _
  have hpo : ∀ v, v ≠ u → sa.pc v = .out := by intro v hv; rw [← hsa]; dsimp only; rw [upd_other _ hv]; exact ha1 v
  have how : owed (.waitBegin u :: (o1 ++ tr)) = true := how1 (.inl hn)
  have hsig : signal c sa.k := by
    rcases reach_signalled hra (.inr (.inl how)) with hs | ⟨v, hv⟩ | ⟨v, hv⟩
    · exact hs
    · by_cases e : v = u
      · rw [e, hpa] at hv; cases hv
      · rw [hpo v e] at hv; cases hv
    · by_cases e : v = u
      · rw [e, hpa] at hv; cases hv
      · rw [hpo v e] at hv; cases hv
  obtain ⟨f0, hf0, hfq, hfh⟩ := wakes hok hra hpa hsig
  have hkia := reach_ki hra
  rcases hv : harvest c sa.k cap with ⟨evs, k'⟩
  obtain ⟨pre, rest, _, _, hrest, hb⟩ := harvest_batch hkia.nodup hv
  -- only the poller's own filter is reported
  have hcold : ∀ f ∈ sa.k.queue, c.internal f = false → hot c (ready c sa.k) sa.k.knotes f = false := by
    intro f hf hi
    rw [hka] at hf ⊢
    unfold hot
    cases hkn : s1.k.knotes f with
    | none => rfl
    | some n =>
      obtain ⟨h2, h3⟩ := hq1 f hf hi n hkn
      simp only [Option.any_some, userReady hi, h2]
      cases hno : n.oneshot with
      | false => rfl
      | true => simp [h3 hno]
  have hown : ∀ f ∈ sa.k.queue, hot c (ready c sa.k) sa.k.knotes f = true → f = f0 ∧
      (eventOf (ready c sa.k) sa.k.knotes f).udata = keyToU64 NOTIFY_KEY := by
    intro f hf hh
    have hi : c.internal f = true := by
      cases hi : c.internal f with
      | true => rfl
      | false => rw [hcold f hf hi] at hh; cases hh
    cases hu : c.user with
    | true =>
      have e1 : f = .user 0 := by simpa [Cfg.internal, hu] using hi
      have e2 : f0 = .user 0 := by simpa [Cfg.internal, hu] using hf0
      obtain ⟨m, hm, _, hd⟩ := reach_userKnote hu hra
      exact ⟨by rw [e1, e2], by rw [e1]; simp [eventOf, hm, hd]⟩
    | false =>
      have hpk := reach_pairKnote hok hu hra
      have rd : ∀ g, g ∈ sa.k.queue → c.internal g = true → g = .read c.notifFd := by
        intro g hg hi
        have : g = .read c.notifFd ∨ g = .write c.notifFd := by simpa [Cfg.internal, hu] using hi
        rcases this with e | e
        · exact e
        · have := hkia.known g hg
          rw [e, hpk.2] at this; cases this
      have e1 := rd f hf hi
      have e2 := rd f0 hfq hf0
      refine ⟨by rw [e1, e2], ?_⟩
      rcases hpk.1 with hk | hk
      · have := hkia.known f hf
        rw [e1, hk] at this; cases this
      · rw [e1]; simp [eventOf, hk, pairKnote]
  have hvis : visible evs = [] := by
    refine visible_own fun e he => ?_
    rw [hb.evs, List.mem_map] at he
    obtain ⟨f, hf, rfl⟩ := he
    exact (hown f (hb.queued f hf).1 (hb.queued f hf).2).2
  have hnil : evs.filter (fun e => !c.internal e.filter) = [] := by
    rw [List.filter_eq_nil_iff]
    intro e he
    rw [hb.evs, List.mem_map] at he
    obtain ⟨f, hf, rfl⟩ := he
    have : f = f0 := (hown f (hb.queued f hf).1 (hb.queued f hf).2).1
    simp [eventOf, this, hf0]
  have hne : evs ≠ [] := by
    intro he
    have hev := hb.evs
    rw [he] at hev
    have h0 := List.map_eq_nil_iff.1 hev.symm
    have hm := hb.complete (by rw [h0]; exact hcap) f0 hfq hfh
    rw [h0] at hm; cases hm
  have hf0t : f0 ∈ pre.filter (hot c (ready c sa.k) sa.k.knotes) := by
    obtain ⟨e, l, hel⟩ := List.exists_cons_of_ne_nil hne
    have he : e ∈ evs := by rw [hel]; simp
    rw [hb.evs, List.mem_map] at he
    obtain ⟨f, hf, _⟩ := he
    rw [← (hown f (hb.queued f hf).1 (hb.queued f hf).2).1]; exact hf
  have hlvl : lvl sa.k.knotes f0 = false := by
    cases hu : c.user with
    | true =>
      have e2 : f0 = .user 0 := by simpa [Cfg.internal, hu] using hf0
      obtain ⟨m, hm, _⟩ := reach_userKnote hu hra
      have := reach_userClear hu hkc hra m hm
      rw [e2]; simp [lvl, hm, this]
    | false =>
      have hpk := reach_pairKnote hok hu hra
      have : f0 = .read c.notifFd ∨ f0 = .write c.notifFd := by simpa [Cfg.internal, hu] using hf0
      rcases this with e | e
      · rcases hpk.1 with hk | hk <;> simp [lvl, e, hk, pairKnote]
      · simp [lvl, e, hpk.2]
  -- nothing that can be reported is left
  have hcoldk : ∀ f ∈ k'.queue, f ∈ sa.k.queue ∧ c.internal f = false := by
    intro f hf
    obtain ⟨hq', ht'⟩ := hb.queue f hf
    refine ⟨hq', ?_⟩
    cases hi : c.internal f with
    | false => rfl
    | true =>
      exfalso
      have e : f = f0 := by
        cases hu : c.user with
        | true =>
          have e1 : f = .user 0 := by simpa [Cfg.internal, hu] using hi
          have e2 : f0 = .user 0 := by simpa [Cfg.internal, hu] using hf0
          rw [e1, e2]
        | false =>
          have hpk := reach_pairKnote hok hu hra
          have rd : ∀ g, g ∈ sa.k.queue → c.internal g = true → g = .read c.notifFd := by
            intro g hg hi
            have : g = .read c.notifFd ∨ g = .write c.notifFd := by simpa [Cfg.internal, hu] using hi
            rcases this with e | e
            · exact e
            · have := hkia.known g hg
              rw [e, hpk.2] at this; cases this
          rw [rd f hq' hi, rd f0 hfq hf0]
      rw [e, hlvl] at ht'
      exact absurd (ht' hf0t) (by simp)
  have hsk : step c sa u .kevent = some ({ sa with k := k', pc := upd sa.pc u (if c.user then .wFin evs else .wClear timed cap evs) }, .deliver u []) := by
    unfold step; rw [if_neg hge]; simp only [hpa, hv]; rw [if_pos (.inl hne), hnil]
  generalize hsb : ({ sa with k := k', pc := upd sa.pc u (if c.user then .wFin evs else .wClear timed cap evs) } : S) = sb at hsk
  have hrb := Reach.step hra (works_of rfl) hsk
  -- the end of the wait
  have hend : ∃ m s2 o2, runActs c s1 (kqWaitActs c u timed cap m) = some (s2, .waitOk u 0 [] :: o2) ∧ (∀ v, s2.pc v = .out) ∧
      s2.lib = none ∧ s2.k.cond = sa.k.cond ∧ s2.k.queue = k'.queue ∧ (∀ f, c.internal f = false → s2.k.knotes f = k'.knotes f) := by
    unfold kqWaitActs
    cases hu : c.user with
    | true =>
      rw [hu, if_pos rfl] at hsb
      have hpb : sb.pc u = .wFin evs := by rw [← hsb]; exact upd_self _ _ _
      have hs : step c sb u .finish = some ({ sb with notified := false, lib := none, pc := upd sb.pc u .out },
          .waitOk u (visible evs).length (visible evs)) := by
        unfold step; rw [if_neg hge]; simp only [hpb]
      rw [hvis] at hs
      have hrun := run_cons hsw (run_cons hsk (run_cons hs (run_nil c _)))
      refine ⟨0, { sb with notified := false, lib := none, pc := upd sb.pc u .out }, [.deliver u [], .waitBegin u], hrun, ?_, rfl, ?_, ?_, ?_⟩
      · intro v
        by_cases e : v = u
        · rw [e]; exact upd_self _ _ _
        · dsimp only; rw [upd_other _ e, ← hsb]; dsimp only; rw [upd_other _ e]; exact hpo v e
      · rw [← hsb]; exact hb.env.1
      · rw [← hsb]
      · intro f _; rw [← hsb]
    | false =>
      rw [hu, if_neg (by simp)] at hsb
      have hpb : sb.pc u = .wClear timed cap evs := by rw [← hsb]; exact upd_self _ _ _
      obtain ⟨m, s2, obs, g1, g2, g3, g4, g5, g6, g7, g8, -⟩ := pair_ends hok hu hrb hpb
      rw [hvis] at g1
      refine ⟨m, s2, obs ++ [.deliver u [], .waitBegin u], ?_, ?_, g4, ?_, ?_, ?_⟩
      · rw [if_neg (by simp)]
        have := run_cons hsw (run_cons hsk g1)
        simpa [by_] using this
      · intro v
        by_cases e : v = u
        · rw [g2, e]; exact upd_self _ _ _
        · rw [g2, upd_other _ e, ← hsb]; dsimp only; rw [upd_other _ e]; exact hpo v e
      · rw [g6, ← hsb]; exact hb.env.1
      · rw [g7, ← hsb]
      · intro f hf; rw [g8 f hf, ← hsb]
  obtain ⟨m, s2, o2, hrun, hall2, hlib2, hcond2, hq2, hkn2⟩ := hend
  have hsw2 : step c s2 u (.wait false cap') = some ({ s2 with lib := some u, pc := upd s2.pc u (.wKev false cap') }, .waitBegin u) := by
    unfold step; rw [if_neg hge]; simp only [hall2]; rw [if_neg (by simp [hlib2]), if_neg (by omega)]
  refine ⟨s1, o1, m, s2, o2, _, h1, hrun, hall2, hsw2, ?_⟩
  -- the next kevent finds nothing
  rcases hv2 : harvest c s2.k cap' with ⟨evs2, k2⟩
  have hkib := reach_ki hrb
  have hnd2 : s2.k.queue.Nodup := by
    rw [hq2]; have := hkib.nodup; rw [← hsb] at this; exact this
  obtain ⟨_, _, _, _, _, hb2⟩ := harvest_batch hnd2 hv2
  have hnil2 : evs2 = [] := by
    cases evs2 with
    | nil => rfl
    | cons e l =>
      exfalso
      have he : e ∈ e :: l := by simp
      rw [hb2.evs, List.mem_map] at he
      obtain ⟨f, hf, _⟩ := he
      obtain ⟨hfq2, hfh2⟩ := hb2.queued f hf
      rw [hq2] at hfq2
      obtain ⟨hfs, hfi⟩ := hcoldk f hfq2
      have hcold' := hcold f hfs hfi
      have hkn : s2.k.knotes f = sa.k.knotes f ∨ s2.k.knotes f = none := by
        rw [hkn2 f hfi, hb.knotes]
        dsimp only
        split
        · cases hx : sa.k.knotes f with
          | none => exact .inl rfl
          | some n =>
            unfold reported
            by_cases ho : n.oneshot = true
            · right; simp [Option.filter, ho]
            · left; simp [Option.filter, ho]
        · exact .inl rfl
      rcases hkn with hkn | hkn
      · unfold hot at hfh2 hcold'
        rw [hkn, userReady hfi, hcond2] at hfh2
        rw [userReady hfi] at hcold'
        rw [hcold'] at hfh2; cases hfh2
      · unfold hot at hfh2; rw [hkn] at hfh2; cases hfh2
  unfold step
  rw [if_neg hge]
  simp only [upd_self, hv2, hnil2]
  simp

/-- Three notifications, a `wait` that returns with nothing, and one that blocks. -/
example :
    ((kqNotifies C04.userCfg 1 3 (init C04.userCfg fun _ => none)).bind fun r => runActs C04.userCfg r.1 (kqWaitActs C04.userCfg 0 false 8 0)).map
      (fun r => (r.2.head?, (step C04.userCfg r.1 0 (.wait false 8)).bind fun q => (step C04.userCfg q.1 0 .kevent).map Prod.snd)) =
      some (some (.waitOk 0 0 []), none) ∧
    ((kqNotifies C04.pairCfg 1 3 (init C04.pairCfg fun _ => none)).bind fun r => runActs C04.pairCfg r.1 (kqWaitActs C04.pairCfg 0 false 8 2)).map
      (fun r => (r.2.head?, (step C04.pairCfg r.1 0 (.wait false 8)).bind fun q => (step C04.pairCfg q.1 0 .kevent).map Prod.snd)) =
      some (some (.waitOk 0 0 []), none) := by decide +kernel

/-- Without `KeepsClear`, that is on a kernel on which adding a user filter again without `EV_CLEAR` takes `EV_CLEAR` away, one
`notify` makes the notifier's knote level-triggered: every later `wait` returns at once with nothing. -/
theorem kqueue_user_notify_sticks (m : Nat) :
    ∃ c s s', c.Ok ∧ c.user = true ∧ c.keepMode (.user 0) = false ∧
      kqNotifies c 1 1 (init c fun _ => none) = some s ∧
      ∃ o, runActs c s.1 ((List.replicate (m + 1) (kqWaitActs c 0 false 8 0)).flatten) = some (s', o) ∧
        o.head? = some (.waitOk 0 0 []) ∧ ¬ KqSpec.owed (o ++ s.2) = true := by
  let c : Cfg := ⟨true, 3, fun _ => false, true, fun _ => false, fun _ => true, 3⟩
  have hs : ((kqNotifies c 1 1 (init c fun _ => none)).map fun r => (r.1.notified, r.1.lib, r.1.k.queue, r.1.k.knotes (.user 0), r.1.pc 0)) =
      some (true, none, [.user 0], some ⟨keyToU64 NOTIFY_KEY, false, false⟩, .out) := by decide +kernel
  rw [Option.map_eq_some_iff] at hs
  obtain ⟨⟨s, o⟩, hs, he⟩ := hs
  simp only [Prod.mk.injEq] at he
  obtain ⟨_, h2, h3, h4, h5⟩ := he
  have one : ∀ s : S, s.lib = none → s.k.queue = [.user 0] → s.k.knotes (.user 0) = some ⟨keyToU64 NOTIFY_KEY, false, false⟩ → s.pc 0 = .out →
      ∃ s' o, runActs c s (kqWaitActs c 0 false 8 0) = some (s', .waitOk 0 0 [] :: o) ∧
        s'.lib = none ∧ s'.k.queue = [.user 0] ∧ s'.k.knotes (.user 0) = some ⟨keyToU64 NOTIFY_KEY, false, false⟩ ∧ s'.pc 0 = .out := by
    intro s h2 h3 h4 h5
    have hw : step c s 0 (.wait false 8) = some ({ s with lib := some 0, pc := upd s.pc 0 (.wKev false 8) }, .waitBegin 0) := by
      unfold step; rw [if_neg (by decide)]; simp [h5, h2]
    let e : KEvent := { filter := .user 0, flags := {}, udata := keyToU64 NOTIFY_KEY }
    have hh : harvest c s.k 8 = ([e], s.k) := by
      unfold harvest
      rw [h3]
      have hr : ready c s.k (.user 0) = some false := rfl
      simp only [scan, h4, hr]
      simp [e, ← h3]
    have hk : step c { s with lib := some 0, pc := upd s.pc 0 (.wKev false 8) } 0 .kevent =
        some ({ s with lib := some 0, pc := upd s.pc 0 (.wFin [e]) }, .deliver 0 []) := by
      unfold step; rw [if_neg (by decide)]; simp only [upd_self, hh]
      simp only [ne_eq, reduceCtorEq, not_false_eq_true, true_or, if_true, Option.some.injEq, Prod.mk.injEq, S.mk.injEq, true_and]
      exact ⟨by funext u; unfold upd; split <;> rfl, rfl⟩
    have hf : step c { s with lib := some 0, pc := upd s.pc 0 (.wFin [e]) } 0 .finish =
        some ({ s with notified := false, lib := none, pc := upd s.pc 0 .out }, .waitOk 0 0 []) := by
      unfold step; rw [if_neg (by decide)]; simp only [upd_self]
      have : visible [e] = [] := visible_own (by simp [e])
      rw [this]
      simp only [List.length_nil, Option.some.injEq, Prod.mk.injEq, and_true, S.mk.injEq, true_and]
      funext u; unfold upd; split <;> rfl
    have hrun := run_cons hw (run_cons hk (run_cons hf (run_nil c _)))
    exact ⟨{ s with notified := false, lib := none, pc := upd s.pc 0 .out }, [.deliver 0 [], .waitBegin 0], hrun, rfl, h3, h4, upd_self s.pc 0 .out⟩
  have many : ∀ m (s : S), s.lib = none → s.k.queue = [.user 0] → s.k.knotes (.user 0) = some ⟨keyToU64 NOTIFY_KEY, false, false⟩ → s.pc 0 = .out →
      ∃ s' o, runActs c s ((List.replicate (m + 1) (kqWaitActs c 0 false 8 0)).flatten) = some (s', .waitOk 0 0 [] :: o) := by
    intro m
    induction m with
    | zero =>
      intro s h2 h3 h4 h5
      obtain ⟨s', o, h, _⟩ := one s h2 h3 h4 h5
      exact ⟨s', o, by simpa using h⟩
    | succ m ih =>
      intro s h2 h3 h4 h5
      obtain ⟨s1, o1, h, g2, g3, g4, g5⟩ := one s h2 h3 h4 h5
      obtain ⟨s2, o2, h'⟩ := ih s1 g2 g3 g4 g5
      refine ⟨s2, o2 ++ .waitOk 0 0 [] :: o1, ?_⟩
      rw [List.replicate_succ, List.flatten_cons]
      simpa using run_append h h'
  obtain ⟨s', o', hrun⟩ := many m s h2 h3 h4 h5
  exact ⟨c, (s, o), s', fun _ => ⟨rfl, rfl⟩, rfl, rfl, hs, _, hrun, rfl, by simp [owed]⟩

end Polling.C06
