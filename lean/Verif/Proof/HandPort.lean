import Verif.Proof.HandTimed
import Verif.Props.C09Machine
import Verif.Props.PortNotify

/-! Empty-handed waits are paid for by notifications: event ports. -/

namespace Polling.PortM
open Port Spec PollFlags C06 C35

/-- What is seen of a step. -/
def handOf : Act × Obs EventExtra → Option Hand
  | (.notifyCas, _) => some .notify
  | (.waitBegin timeout _, _) => some (.wait timeout.isSome)
  | (_, .waitOk n _) => some (.back n)
  | _ => none

/-- The same with the times. -/
def handT : Act × Obs EventExtra → Option HandT
  | (.notifyCas, _) => some .notify
  | (.waitBegin timeout _, _) => some (.wait (timeout.map Duration.ns))
  | (.tick dt, _) => some (.pass dt)
  | (_, .waitOk n _) => some (.back n)
  | _ => none

theorem runs_reach {n : Nat} {P : Act → Prop} {s l} (h : Runs (fun s => ∃ cond, s = init cond) (step n) P s l) : Reach n Any s (l.map Prod.snd) := by
  induction h with
  | init hi => obtain ⟨u, rfl⟩ := hi; exact .init u
  | step _ _ hs ih => exact .step ih trivial hs

/-- A notification was taken. -/
def tok (b : Bool) : Phase → Nat
  | .taken evs => if b = false ∧ visible evs = [] then 1 else 0
  | _ => 0

/-- The buffer has room. -/
def Phase.room : Phase → Prop
  | .top _ cap | .polling _ cap _ _ => cap > 0
  | _ => True

/-- Empty-handed returns `E`, notifications `N`; `b`: the `wait` in progress may come back with nothing. -/
def Pay (b : Bool) (E N : Nat) (s : S) : Prop := E + tok b s.phase + s.k.queue.count notification + s.inflight ≤ N

theorem Pay.same {s s' : S} {b E N} (h : Pay b E N s) (h1 : s'.inflight = s.inflight) (h2 : s'.k.queue.count notification = s.k.queue.count notification)
    (h3 : s'.phase = s.phase) : Pay b E N s' := by unfold Pay; rw [h1, h2, h3]; exact h

theorem Pay.mono {b b' E N s} (h : Pay b E N s) (hb : b = true → b' = true) : Pay b' E N s := by
  have : tok b' s.phase ≤ tok b s.phase := by
    cases b <;> cases b'
    · exact Nat.le_refl _
    · unfold tok; split
      · simp
      · exact Nat.le_refl _
    · cases hb rfl
    · exact Nat.le_refl _
  unfold Pay at *; omega

def newN (a : Act) (N : Nat) : Nat := match a with | .notifyCas => N + 1 | _ => N
def newE (b : Bool) (o : Obs EventExtra) (E : Nat) : Nat := match o with | .waitOk 0 _ => E + (if b then 0 else 1) | _ => E

/-- If nothing of what was taken is shown, a notification was taken. -/
theorem took {cur k} (h : KI cur k) {cap : Nat} (hcap : cap > 0) (hq : k.queue ≠ []) (hv : visible (getn k cap).1 = []) :
    (getn k cap).2.queue.count notification + 1 ≤ k.queue.count notification := by
  obtain ⟨e, q, he⟩ := List.exists_cons_of_ne_nil hq
  obtain ⟨cap, rfl⟩ : ∃ m, cap = m + 1 := ⟨cap - 1, by omega⟩
  unfold getn at *
  rw [he] at hv ⊢
  simp only [List.take_succ_cons, List.map_cons, List.drop_succ_cons] at hv ⊢
  cases e with
  | user ev d =>
    have hu := h.users ev d (by rw [he]; simp)
    rw [hu, List.count_cons_self]
    exact Nat.succ_le_succ ((List.drop_sublist _ _).count_le _)
  | fd x =>
    exfalso
    obtain ⟨a, ha, _⟩ := h.fds x (by rw [he]; simp)
    have hm := h.reg x
    cases hc : cur x with
    | none => rw [hc, ha] at hm; cases hm
    | some cu =>
      rw [hc, ha] at hm
      obtain ⟨h1, _, h3⟩ := hm
      split at h3
      · cases h3
      · cases h3
        unfold visible at hv
        simp only [List.map_cons, rawOf, ha, Option.map_some] at hv
        rw [List.filter_cons_of_pos (by simpa [toEvent, u64ToKey, keyToU64] using h1)] at hv
        cases hv

theorem Pay.step {n : Nat} {s s' : S} {b : Bool} {E N : Nat} {a : Act} {o : Obs EventExtra} (h : Pay b E N s) (hs : PortM.step n s a = some (s', o))
    (hret : ∀ dl cap to t0, a = .getn → s.phase = .polling dl cap to t0 → b = false →
      (s.k.queue ≠ [] → visible (getn s.k cap).1 = [] → (getn s.k cap).2.queue.count notification + 1 ≤ s.k.queue.count notification) ∧
      (s.k.queue = [] → timeUp to t0 s.k.time = true → False)) :
    Pay b (newE b o E) (newN a N) s' := by
  have hp : E + tok b s.phase + s.k.queue.count notification + s.inflight ≤ N := h
  cases a with
  | add fd ev mode fault =>
    simp only [PortM.step] at hs
    split at hs
    · cases hs; exact h.same rfl rfl rfl
    · rcases hm : PortM.add fault s.k fd ev mode with ⟨r, k⟩
      rw [hm] at hs
      rcases add_cases hm with ⟨rfl, rfl, ha⟩ | ⟨⟨e, rfl⟩, rfl⟩ <;> cases hs
      · exact h.same rfl (count_associate ha) rfl
      · exact h.same rfl rfl rfl
  | modify fd ev mode fault =>
    simp only [PortM.step] at hs
    split at hs
    · cases hs; exact h.same rfl rfl rfl
    · rcases hm : PortM.modify fault s.k fd ev mode with ⟨r, k⟩
      rw [hm] at hs
      rcases add_cases hm with ⟨rfl, rfl, ha⟩ | ⟨⟨e, rfl⟩, rfl⟩ <;> cases hs
      · exact h.same rfl (count_associate ha) rfl
      · exact h.same rfl rfl rfl
  | delete fd fault =>
    simp only [PortM.step] at hs
    split at hs
    · cases hs
    · rcases hm : PortM.delete fault s.k fd with ⟨r, k⟩
      rw [hm] at hs
      rcases delete_cases hm with ⟨rfl, rfl | ⟨rfl, _⟩⟩ | ⟨⟨e, rfl⟩, rfl⟩ <;> cases hs
      · exact h.same rfl (count_filter_notif _ fd) rfl
      · exact h.same rfl rfl rfl
      · exact h.same rfl rfl rfl
  | notifyCas =>
    simp only [PortM.step] at hs
    repeat' split at hs
    all_goals cases hs
    all_goals
      show E + tok b s.phase + s.k.queue.count notification + _ ≤ N + 1
      (try simp only)
      omega
  | notifySend fault =>
    simp only [PortM.step] at hs
    split at hs
    rotate_left
    · cases hs
    cases fault with
    | some e => cases hs; show E + tok b s.phase + s.k.queue.count notification + (s.inflight - 1) ≤ N; omega
    | none =>
      cases hs
      show E + tok b s.phase + (s.k.queue ++ [notification]).count notification + (s.inflight - 1) ≤ N
      rw [List.count_append, List.count_singleton_self]
      omega
  | waitBegin timeout cap =>
    simp only [PortM.step] at hs
    split at hs
    · next hph =>
      split at hs
      · cases hs
      · next hc =>
        cases hs
        rw [hph] at hp
        exact hp
    · cases hs
  | waitBusy =>
    simp only [PortM.step] at hs
    split at hs <;> cases hs
    exact h.same rfl rfl rfl
  | compute =>
    simp only [PortM.step] at hs
    split at hs <;> cases hs
    next hph =>
    rw [hph] at hp
    exact hp
  | getn =>
    simp only [PortM.step] at hs
    split at hs
    rotate_left
    · cases hs
    next dl cap to t0 hph =>
    rw [hph] at hp
    split at hs
    · next hq =>
      cases hs
      show E + tok b (.taken (getn s.k cap).1) + (getn s.k cap).2.queue.count notification + s.inflight ≤ N
      have hle : (getn s.k cap).2.queue.count notification ≤ s.k.queue.count notification := (List.drop_sublist _ _).count_le _
      simp only [tok] at hp ⊢
      split
      · next hx =>
        have := (hret dl cap to t0 rfl hph hx.1).1 hq hx.2
        omega
      · omega
    · split at hs <;> cases hs
      next htu =>
      show E + tok b (.taken []) + s.k.queue.count notification + s.inflight ≤ N
      have hl : b = true := by
        cases hb : b with
        | true => rfl
        | false => exact ((hret dl cap to t0 rfl hph hb).2 (by simpa using ‹¬ s.k.queue ≠ []›) htu).elim
      rw [hl] at hp ⊢
      exact hp
  | getnFail e =>
    simp only [PortM.step] at hs
    split at hs
    rotate_left
    · cases hs
    next dl cap to t0 hph =>
    rw [hph] at hp
    split at hs <;> cases hs
    · exact hp
    · exact hp
  | finish =>
    simp only [PortM.step] at hs
    split at hs <;> cases hs
    next evs hph =>
    rw [hph] at hp
    simp only [tok] at hp
    show newE b (.waitOk (visible evs).length _) E + 0 + s.k.queue.count notification + s.inflight ≤ N
    cases hv : visible evs with
    | nil =>
      rw [hv] at hp
      simp only [List.length_nil, newE]
      cases b <;> simp at hp ⊢ <;> omega
    | cons x xs =>
      rw [hv] at hp
      simp only [List.length_cons, newE]
      simp at hp
      omega
  | setReady fd flags key =>
    simp only [PortM.step] at hs
    split at hs
    · cases hs
    · cases hs; exact h.same rfl (count_wake { s.k with cond := fun x => if x = fd then flags else s.k.cond x } fd key) rfl
  | tick dt => simp only [PortM.step] at hs; cases hs; exact h.same rfl rfl rfl

/-- The time a step takes. -/
def passed : Act → Nat
  | .tick dt => dt
  | _ => 0

theorem step_time {n : Nat} {s s' : S} {a : Act} {o : Obs EventExtra} (hs : PortM.step n s a = some (s', o)) : s'.k.time = s.k.time + passed a := by
  cases a with
  | add fd ev mode fault =>
    simp only [PortM.step] at hs
    split at hs; · cases hs; rfl
    split at hs <;> next heq => cases hs; exact modify_time heq
  | modify fd ev mode fault =>
    simp only [PortM.step] at hs
    split at hs; · cases hs; rfl
    split at hs <;> next heq => cases hs; exact modify_time heq
  | delete fd fault =>
    simp only [PortM.step] at hs
    split at hs; · cases hs
    split at hs <;> next heq => cases hs; exact delete_time heq
  | setReady fd flags key =>
    simp only [PortM.step] at hs
    split at hs; · cases hs
    cases hs
    dsimp only
    rw [(wake_env _ _ _).2.2.1]; rfl
  | _ =>
    simp only [PortM.step] at hs
    repeat' split at hs
    all_goals first | (cases hs; done) | (cases hs; rfl)

/-- Outside a `wait` only `waitBegin` begins one. -/
theorem step_idle {n : Nat} {s s' : S} {a : Act} {o : Obs EventExtra} (hs : PortM.step n s a = some (s', o)) (hi : s.phase = .idle)
    (ha : ∀ t cap, a ≠ .waitBegin t cap) : s'.phase = .idle := by
  cases a <;> simp only [PortM.step, hi] at hs
  case waitBegin t cap => exact (ha t cap rfl).elim
  all_goals repeat' split at hs
  all_goals first | (cases hs; done) | (cases hs; first | rfl | exact hi)

/-- The end of a `wait`. -/
theorem step_back {n : Nat} {s s' : S} {a : Act} {m evs} (hs : PortM.step n s a = some (s', .waitOk m evs)) : a = .finish ∧ s'.phase = .idle := by
  cases a <;> simp only [PortM.step] at hs
  case finish => split at hs <;> cases hs; exact ⟨rfl, rfl⟩
  all_goals exfalso
  all_goals repeat' split at hs
  all_goals (cases hs; done)

theorem step_err {n : Nat} {s s' : S} {a : Act} {e} (hs : PortM.step n s a = some (s', .waitErr e)) : s'.phase = .idle := by
  cases a <;> simp only [PortM.step] at hs
  all_goals repeat' split at hs
  all_goals first | (cases hs; done) | (cases hs; rfl)

theorem step_room {n : Nat} {s s' : S} {a : Act} {o : Obs EventExtra} (hs : PortM.step n s a = some (s', o)) (hi : s.phase.room) : s'.phase.room := by
  cases a <;> simp only [PortM.step] at hs
  all_goals repeat' split at hs
  all_goals first
    | (cases hs; done)
    | (cases hs; first | exact hi | trivial | exact Nat.pos_of_ne_zero (by assumption) | (rename_i hph; rw [hph] at hi; exact hi) | (rename_i hph _; rw [hph] at hi; exact hi))

structure HInv (s : S) (l : List HandT) : Prop where
  room : s.phase.room
  since : s.phase = .idle ∨ ∃ b t, timeoutOf l = Option.map Duration.ns t ∧ b + spent l = s.k.time ∧
    Since b (t.bind fun t => instantCheckedAdd unixMaxNs b t) s
  pay : Pay (timeOver none l) (earlyBacks none l) (notifiesT l) s

theorem HInv.step {n : Nat} {s s' : S} {tr : List (Obs EventExtra)} {l : List HandT} {a : Act} {o : Obs EventExtra}
    (hr : Reach n Any s tr) (h : HInv s l) (hs : PortM.step n s a = some (s', o)) : HInv s' ((handT (a, o)).toList ++ l) := by
  have hroom := step_room hs h.room
  have hp := h.pay.step hs (by
    intro dl cap to t0 ha hph hb
    have hro := h.room
    rw [hph] at hro
    refine ⟨fun hq hv => took (reach_ki hr) hro hq hv, fun hq htu => ?_⟩
    rcases h.since with hi | ⟨b, t, ht, hbs, hS⟩
    · rw [hph] at hi; cases hi
    · unfold Since at hS
      rw [hph] at hS
      obtain ⟨_, ⟨rfl, rfl⟩, _⟩ := hS
      cases t with
      | none => cases htu
      | some t =>
        simp only [Option.bind_some] at htu
        cases hdl : instantCheckedAdd unixMaxNs b t with
        | none => rw [hdl] at htu; cases htu
        | some d =>
          rw [hdl] at htu
          obtain ⟨he, hm⟩ := C09.add_le hdl
          have := EpollM.since_ns (t := t0) hm
          simp only [timeUp, Option.map_some, decide_eq_true_eq] at htu
          unfold timeOver at hb
          rw [ht] at hb
          simp only [Option.map_some, Bool.or_eq_false_iff, decide_eq_false_iff_not] at hb
          exact hb.1 (by omega))
  have htm := step_time hs
  by_cases hw : ∃ t cap, a = .waitBegin t cap
  · obtain ⟨t, cap, rfl⟩ := hw
    simp only [PortM.step] at hs
    split at hs
    · split at hs <;> cases hs
      refine ⟨hroom, .inr ⟨s.k.time, t, rfl, rfl, Nat.le_refl _, rfl⟩, ?_⟩
      have e2 : notifiesT (.wait (t.map Duration.ns) :: l) = notifiesT l := by simp [notifiesT]
      show Pay _ (earlyBacks none l) (notifiesT (.wait (t.map Duration.ns) :: l)) _
      rw [e2]
      exact hp
    · cases hs
  · have hw' : ∀ t cap, a ≠ .waitBegin t cap := fun t cap e => hw ⟨t, cap, e⟩
    have key : timeoutOf ((handT (a, o)).toList ++ l) = timeoutOf l ∧ spent ((handT (a, o)).toList ++ l) = spent l + passed a ∧
        Pay (timeOver none ((handT (a, o)).toList ++ l)) (earlyBacks none ((handT (a, o)).toList ++ l)) (notifiesT ((handT (a, o)).toList ++ l)) s' := by
      by_cases hn : ∃ n evs, o = .waitOk n evs
      · obtain ⟨n, evs, rfl⟩ := hn
        obtain ⟨rfl, _⟩ := step_back hs
        refine ⟨rfl, rfl, ?_⟩
        have e2 : notifiesT (.back n :: l) = notifiesT l := by simp [notifiesT]
        show Pay (timeOver none l) (earlyBacks none (.back n :: l)) (notifiesT (.back n :: l)) s'
        rw [e2]
        cases n <;> exact hp
      · have eE : newE (timeOver none l) o (earlyBacks none l) = earlyBacks none l := by
          cases o <;> first | rfl | exact (hn ⟨_, _, rfl⟩).elim
        rw [eE] at hp
        cases a with
        | waitBegin t cap => exact (hw' t cap rfl).elim
        | notifyCas =>
          have e2 : notifiesT (.notify :: l) = notifiesT l + 1 := by simp [notifiesT]
          refine ⟨rfl, rfl, ?_⟩
          show Pay (timeOver none l) (earlyBacks none l) (notifiesT (.notify :: l)) s'
          rw [e2]; exact hp
        | tick dt =>
          have e2 : notifiesT (.pass dt :: l) = notifiesT l := by simp [notifiesT]
          refine ⟨rfl, rfl, ?_⟩
          show Pay (timeOver none (.pass dt :: l)) (earlyBacks none l) (notifiesT (.pass dt :: l)) s'
          rw [e2]; exact hp.mono timeOver_pass
        | _ => cases o <;> first | exact (hn ⟨_, _, rfl⟩).elim | exact ⟨rfl, rfl, hp⟩
    obtain ⟨k1, k2, k3⟩ := key
    refine ⟨hroom, ?_, k3⟩
    rw [k1, k2, htm]
    rcases h.since with hi | ⟨b, t, ht, hbs, hS⟩
    · exact .inl (step_idle hs hi hw')
    · by_cases hn : ∃ n evs, o = .waitOk n evs
      · obtain ⟨n, evs, rfl⟩ := hn
        exact .inl (step_back hs).2
      · by_cases he : ∃ e, o = .waitErr e
        · obtain ⟨e, rfl⟩ := he
          exact .inl (step_err hs)
        · exact .inr ⟨b, t, ht, by rw [← hbs, Nat.add_assoc], step_since hS hs (fun n evs e => hn ⟨n, evs, e⟩) (fun e h => he ⟨e, h⟩)⟩

theorem reach_timed {n : Nat} {P : Act → Prop} {s l} (h : Runs (fun s => ∃ cond, s = init cond) (step n) P s l) : HInv s (l.filterMap handT) := by
  induction h with
  | @init s hi =>
    obtain ⟨u, rfl⟩ := hi
    exact ⟨trivial, .inl rfl, by simp [Pay, init, tok, earlyBacks, notifiesT]⟩
  | @step s l a s' o hr _ hs ih =>
    have := ih.step (runs_reach hr) hs
    have e : ((a, o) :: l).filterMap handT = (handT (a, o)).toList ++ l.filterMap handT := by
      rw [List.filterMap_cons]; cases handT (a, o) <;> rfl
    rw [e]; exact this

/-- The log with times says more than the one without. -/
theorem hand_plain {n : Nat} {P : Act → Prop} {s l} (h : Runs (fun s => ∃ cond, s = init cond) (step n) P s l) :
    l.filterMap handOf = (l.filterMap handT).filterMap HandT.plain := by
  induction h with
  | init => rfl
  | @step s l a s' o _ _ hs ih =>
    rw [List.filterMap_cons, List.filterMap_cons, ih]
    cases a <;> cases o <;> first
      | rfl
      | (simp [handOf, handT, HandT.plain]; done)
      | (simp only [PortM.step] at hs; repeat' split at hs
         all_goals cases hs)

end Polling.PortM
