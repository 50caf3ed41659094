import Verif.Proof.KqNotify
import Verif.Proof.KqCalls

/-! What a `wait` on kqueue returns is what it took from the kernel; how watches come about. -/

namespace Polling.KqM
open Kqueue KqSpec

/-- The events in the buffer of a `wait`. -/
def evsAt : Pc → Option (List KEvent)
  | .wClear _ _ evs | .wHas _ _ evs | .submit (.rearm _ _ evs) _ _ | .wFin evs => some evs
  | _ => none

/-- The events of the user among them are those taken; the others are the poller's own. -/
def Bufs (c : Cfg) (s : S) (tr : List KObs) : Prop :=
  ∀ t evs, evsAt (s.pc t) = some evs → evs.filter (fun e => !c.internal e.filter) = taken tr t ∧
    ∀ e ∈ evs, c.internal e.filter = true → e.udata = keyToU64 NOTIFY_KEY

theorem own_udata {c P s tr} (hok : c.Ok) (h : Reach c P s tr) {f : Filter} (hi : c.internal f = true) {n : Knote} (hn : s.k.knotes f = some n) :
    n.udata = keyToU64 NOTIFY_KEY := by
  unfold Cfg.internal at hi
  cases hu : c.user with
  | true =>
    rw [hu] at hi
    have hf : f = .user 0 := by simpa using hi
    subst hf
    obtain ⟨n', h1, _, h3⟩ := reach_userKnote hu h
    rw [hn] at h1; cases h1; exact h3
  | false =>
    rw [hu] at hi
    have hf : f = .read c.notifFd ∨ f = .write c.notifFd := by simpa using hi
    obtain ⟨h1, h2⟩ := reach_pairKnote hok hu h
    rcases hf with rfl | rfl
    · rcases h1 with h1 | h1
      · rw [h1] at hn; cases hn
      · rw [h1] at hn; cases hn; rfl
    · rw [h2] at hn; cases hn

theorem next_bufs {c P s t a s' o} {tr : List KObs} (hok : c.Ok) (hr : Reach c P s tr) (hn : Next c s t a s' o) (h : Bufs c s tr) :
    Bufs c s' (o :: tr) := by
  intro u evs he
  -- the step does not change what was taken
  have same : taken (o :: tr) u = taken tr u → evsAt (s.pc u) = some evs → evs.filter (fun e => !c.internal e.filter) = taken (o :: tr) u ∧
      ∀ e ∈ evs, c.internal e.filter = true → e.udata = keyToU64 NOTIFY_KEY := by
    intro h1 h2; rw [h1]; exact h u evs h2
  have hchg : ∀ ev errno, taken (changeObs t ev errno :: tr) u = taken tr u := by
    intro ev errno; unfold changeObs; split; rfl; split <;> rfl
  by_cases e : u = t
  · subst e
    cases hn with
    | reject => exact same rfl he
    | panic0 => exact same rfl he
    | begin hp => dsimp only at he; rw [upd_self] at he; rename_i call _ _ _; cases call <;> cases he
    | wHas hp => dsimp only at he; rw [upd_self] at he; refine same rfl ?_; rw [hp]; exact he
    | change hp =>
      dsimp only at he; rw [upd_self] at he
      refine same (hchg _ _) ?_
      rw [hp]
      rename_i w _ _ _ _ _ _ _
      cases w <;> first | exact he | cases he
    | finRearm hf => obtain ⟨_, _, hp⟩ := hf.pc; dsimp only at he; rw [upd_self] at he; refine same rfl ?_; rw [hp]; exact he
    | casUser => dsimp only at he; rw [upd_self] at he; cases he
    | @kevent timed cap evs' k hp hh hc =>
      dsimp only at he
      rw [upd_self] at he
      have he' : evs' = evs := by cases hu : c.user <;> rw [hu] at he <;> exact Option.some.inj he
      subst he'
      refine ⟨by simp [taken], ?_⟩
      intro ev hev hi
      obtain ⟨pre, rest, _, _, _, hb⟩ := harvest_batch (reach_ki hr).nodup hh
      rw [hb.evs, List.mem_map] at hev
      obtain ⟨f, hf, rfl⟩ := hev
      have hhot := (hb.queued f hf).2
      cases hk : s.k.knotes f with
      | none => simp [hot, hk] at hhot
      | some n =>
        have := own_udata hok hr (f := f) hi hk
        simpa [eventOf, hk] using this
    | read => exact same rfl he
    | readEnd hp => dsimp only at he; rw [upd_self] at he; refine same rfl ?_; rw [hp]; exact he
    | kevRetry hp => rw [hp] at he; cases he
    | casSeen hp => rw [hp] at he; cases he
    | waitBusy hp => rw [hp] at he; cases he
    | raise => exact same rfl he
    | fall => exact same rfl he
    | _ => dsimp only at he; rw [upd_self] at he; cases he
  · have hpc : s'.pc u = s.pc u := by
      cases hn <;> first | rfl | (dsimp only; rw [upd_other _ e])
    rw [hpc] at he
    refine same ?_ he
    cases hn with
    | change => exact hchg _ _
    | kevent => simp only [taken]; rw [if_neg (fun h => e h.symm)]
    | waitBegin => simp only [taken]; rw [if_neg (fun h => e h.symm)]
    | _ => rfl

theorem reach_bufs {c P s tr} (hok : c.Ok) (h : Reach c P s tr) : Bufs c s tr := by
  induction h with
  | init cond =>
    have hpc : ∀ t, (init c cond).pc t = .out := by intro t; unfold init; split <;> rfl
    intro t evs he; rw [hpc] at he; cases he
  | step hr _ hs ih => exact next_bufs hok hr (step_next hs).2 ih

/-- Events of the poller itself are not shown. -/
theorem visible_user {c : Cfg} {evs : List KEvent} (h : ∀ e ∈ evs, c.internal e.filter = true → e.udata = keyToU64 NOTIFY_KEY) :
    visible evs = visible (evs.filter fun e => !c.internal e.filter) := by
  unfold visible
  induction evs with
  | nil => rfl
  | cons e evs ih =>
    have ih := ih fun x hx => h x (by simp [hx])
    rw [List.filter_cons]
    cases hi : c.internal e.filter with
    | true =>
      have hk := h e (by simp) hi
      have : (toEvent e).key = NOTIFY_KEY := by simp [toEvent, hk, keyToU64, u64ToKey, NOTIFY_KEY]
      simp [List.filter_cons, this, ih]
    | false => simp [List.filter_cons, ih]

/-! Watches. -/

/-- The key of a watch is that of the latest acceptance. -/
theorem watch_lastArm (keep : Filter → Bool) : ∀ (tr : List KObs) (f : Filter),
    (∀ w, watch keep tr f = some w → ∃ o cl, lastArm tr f = some (w.key, o, cl) ∧ (keep f = false → o = w.oneshot ∧ cl = w.clear)) ∧
    (watch keep tr f = none → lastArm tr f = none) := by
  intro tr
  induction tr with
  | nil => intro f; exact ⟨nofun, fun _ => rfl⟩
  | cons o tr ih =>
    intro f
    cases o with
    | armed u g key o cl =>
      simp only [watch, lastArm]
      by_cases e : f = g
      · simp only [if_pos e]
        refine ⟨fun w hw => ?_, fun hw => ?_⟩
        · cases hx : watch keep tr f with
          | none => rw [hx] at hw; cases hw; exact ⟨o, cl, rfl, fun _ => ⟨rfl, rfl⟩⟩
          | some w' =>
            rw [hx] at hw
            dsimp only at hw
            split at hw
            · next hk =>
              cases hw
              refine ⟨o, cl, rfl, fun h => ?_⟩
              rw [h] at hk; cases hk
            · cases hw; exact ⟨o, cl, rfl, fun _ => ⟨rfl, rfl⟩⟩
        · cases hx : watch keep tr f with
          | none => rw [hx] at hw; cases hw
          | some w' => rw [hx] at hw; dsimp only at hw; split at hw <;> cases hw
      · simp only [if_neg e]; exact ih f
    | disarmed u g =>
      simp only [watch, lastArm]
      by_cases e : f = g
      · simp only [if_pos e]; exact ⟨nofun, fun _ => trivial⟩
      · simp only [if_neg e]; exact ih f
    | deliver u evs =>
      simp only [watch, lastArm]
      refine ⟨fun w hw => ?_, fun hw => (ih f).2 (by simpa using hw)⟩
      rw [Option.map_eq_some_iff] at hw
      obtain ⟨w', hw', rfl⟩ := hw
      have := (ih f).1 w' hw'
      split <;> exact this
    | _ => exact ih f

/-- Without a new acceptance, what is not watched stays so. -/
theorem watch_stays_gone (keep : Filter → Bool) (f : Filter) (base : List KObs) (hb : ∀ w, watch keep base f = some w → w.gone = true) :
    ∀ l : List KObs, (∀ o ∈ l, arms f o = false) → ∀ w, watch keep (l ++ base) f = some w → w.gone = true := by
  intro l
  induction l with
  | nil => intro _; exact hb
  | cons o l ih =>
    intro ha
    have ih := ih fun o ho => ha o (by simp [ho])
    have ho := ha o (by simp)
    rw [List.cons_append]
    intro w hw
    cases o with
    | armed u g key o cl =>
      have e : f ≠ g := by
        rintro rfl; simp [arms] at ho
      simp only [watch, if_neg e] at hw
      exact ih w hw
    | disarmed u g =>
      simp only [watch] at hw
      split at hw
      · cases hw
      · exact ih w hw
    | deliver u evs =>
      simp only [watch, Option.map_eq_some_iff] at hw
      obtain ⟨w', hw', rfl⟩ := hw
      have := ih w' hw'
      unfold Watch.gone at this ⊢
      split
      · simp only [Bool.and_eq_true] at this ⊢; exact ⟨this.1, trivial⟩
      · exact this
    | _ => exact ih w hw

/-- Acceptances of the user's filters are due to registration calls that ask for them. -/
theorem armed_by {c P s tr} (h : Reach c P s tr) {t a s' u f key o cl} (hs : step c s t a = some (s', .armed u f key o cl))
    (hi : c.internal f = false) : ∃ call k m, calling tr u = some call ∧ wants call f = some (some (k, m)) ∧ key = keyToU64 k ∧
      o = oneshotMode m ∧ cl = edgeMode m := by
  have hn := (step_next hs).2
  generalize ho : KObs.armed u f key o cl = o' at hn
  cases hn with
  | @change fault w ev todo done errno k hp hf hr =>
    have hpc := reach_pcOk h t
    rw [hp] at hpc
    unfold changeObs at ho
    split at ho
    · cases ho
    · split at ho
      · next ha =>
        injection ho with h1 h2 h3 h4 h5
        subst h1 h2 h3 h4 h5
        have hmem := head_change hpc
        cases w with
        | call call =>
          have hcall := (reach_calls h).calling u
          rw [hp] at hcall
          refine ⟨call, ?_⟩
          have hd : ∀ (b : Bool) (m : PollMode), (changeFlags b m).add = true → b = true ∧ (changeFlags b m).oneshot = oneshotMode m ∧ (changeFlags b m).clear = edgeMode m := by
            intro b m; cases b <;> cases m <;> simp [changeFlags, modeToFlags, oneshotMode, edgeMode]
          cases call with
          | add fd e mode =>
            simp only [changesOf, changes, fdChanges, List.mem_cons, List.not_mem_nil, or_false] at hmem
            rcases hmem with rfl | rfl
            · obtain ⟨h1, h2, h3⟩ := hd _ _ ha
              exact ⟨e.key, mode, hcall, by simp [wants, h1], rfl, h2, h3⟩
            · obtain ⟨h1, h2, h3⟩ := hd _ _ ha
              exact ⟨e.key, mode, hcall, by simp [wants, h1], rfl, h2, h3⟩
          | modify fd e mode =>
            simp only [changesOf, changes, fdChanges, List.mem_cons, List.not_mem_nil, or_false] at hmem
            rcases hmem with rfl | rfl
            · obtain ⟨h1, h2, h3⟩ := hd _ _ ha
              exact ⟨e.key, mode, hcall, by simp [wants, h1], rfl, h2, h3⟩
            · obtain ⟨h1, h2, h3⟩ := hd _ _ ha
              exact ⟨e.key, mode, hcall, by simp [wants, h1], rfl, h2, h3⟩
          | delete fd =>
            simp only [changesOf, changes, fdChanges, List.mem_cons, List.not_mem_nil, or_false] at hmem
            rcases hmem with rfl | rfl <;> cases ha
          | addFilter x k m =>
            simp only [changesOf, changes, List.mem_cons, List.not_mem_nil, or_false] at hmem
            subst hmem
            obtain ⟨h1, h2, h3⟩ := hd _ _ ha
            exact ⟨k, m, hcall, by cases x <;> simp [wants, Ext.filter, extFilter], rfl, h2, h3⟩
          | modifyFilter x k m =>
            simp only [changesOf, changes, List.mem_cons, List.not_mem_nil, or_false] at hmem
            subst hmem
            obtain ⟨h1, h2, h3⟩ := hd _ _ ha
            exact ⟨k, m, hcall, by cases x <;> simp [wants, Ext.filter, extFilter], rfl, h2, h3⟩
          | deleteFilter x =>
            simp only [changesOf, changes, List.mem_cons, List.not_mem_nil, or_false] at hmem
            subst hmem
            cases ha
        | notify => have := own_filter hpc.1 (by intro _ h; cases h) hmem; rw [hi] at this; cases this
        | rearm => have := own_filter hpc.1 (by intro _ h; cases h) hmem; rw [hi] at this; cases this
      · cases ho
  | _ => cases ho

end Polling.KqM
