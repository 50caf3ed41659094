import Verif.Props.C12
import Verif.Props.PortNotify

/-! C09: a timeout never fires early: the runs of the epoll and event-port pollers, with everything other threads do meanwhile. -/

namespace Polling.EpollM
open Epoll Spec

/-- The wait in progress was begun at time `b` and has the deadline `dl`. -/
def Since (b : Nat) (dl : Option Nat) (s : S) : Prop :=
  b ≤ s.k.time ∧
  match s.phase with
  | .idle => False
  | .top d _ | .sized d _ _ | .timed d _ _ | .clearing d _ _ | .cleared d _ _ | .rearmed d _ _ => d = dl
  | .polling d _ _ t0 => d = dl ∧ b ≤ t0

theorem Since.congr {b dl s s'} (h : Since b dl s) (h1 : s'.phase = s.phase) (h2 : s.k.time ≤ s'.k.time) : Since b dl s' :=
  ⟨Nat.le_trans h.1 h2, by rw [h1]; exact h.2⟩

theorem waitFail_since {b dl s cap e s' o} (hb : b ≤ s.k.time) (heq : waitFail s dl cap e = (s', o)) (hne : ∀ e, o ≠ .waitErr e) :
    Since b dl s' := by
  unfold waitFail at heq
  split at heq <;> cases heq
  · exact ⟨hb, rfl⟩
  · exact (hne _ rfl).elim

theorem step_since {c : Cfg} {s s' : S} {a : Act} {o : Obs EventExtra} {b dl} (h : Since b dl s) (hs : step c s a = some (s', o))
    (hok : ∀ n evs, o ≠ .waitOk n evs) (herr : ∀ e, o ≠ .waitErr e) : Since b dl s' := by
  have hb := h.1
  cases a with
  | add fd ev mode fault =>
    simp only [step] at hs
    split at hs; · cases hs
    split at hs; · cases hs
    split at hs; · cases hs; exact h
    split at hs <;> next heq => cases hs; exact h.congr rfl (Nat.le_of_eq (add_timer heq).2.2.symm)
  | modify fd ev mode fault =>
    simp only [step] at hs
    split at hs; · cases hs
    split at hs; · cases hs
    split at hs; · cases hs; exact h
    split at hs <;> next heq => cases hs; exact h.congr rfl (Nat.le_of_eq (modify_timer heq).2.2.symm)
  | delete fd fault =>
    simp only [step] at hs
    split at hs; · cases hs
    split at hs <;> next heq => cases hs; exact h.congr rfl (Nat.le_of_eq (delete_timer heq).2.2.symm)
  | notifyCas =>
    simp only [step] at hs
    split at hs
    · cases hs; exact h
    · split at hs <;> cases hs
      exact h.congr rfl (Nat.le_refl _)
  | notifyWrite =>
    simp only [step] at hs
    split at hs <;> cases hs
    exact h.congr rfl (Nat.le_of_eq (by dsimp only; rw [link_eq]))
  | waitBegin timeout cap =>
    simp only [step] at hs
    split at hs
    · next hp => unfold Since at h; rw [hp] at h; exact h.2.elim
    · cases hs
  | waitBusy =>
    simp only [step] at hs
    split at hs <;> cases hs
    exact h
  | compute =>
    simp only [step] at hs
    split at hs <;> cases hs
    next hp => unfold Since at h; rw [hp] at h; exact h
  | settime fault =>
    simp only [step] at hs
    split at hs
    · next hp =>
      unfold Since at h; rw [hp] at h
      obtain ⟨_, rfl⟩ := h
      split at hs
      · split at hs
        · exact waitFail_since hb (Option.some.inj hs) herr
        · cases hs; exact ⟨hb, rfl⟩
      · cases hs; exact ⟨hb, rfl⟩
    · cases hs
  | armTimer fault =>
    simp only [step] at hs
    split at hs
    · next hp =>
      unfold Since at h; rw [hp] at h
      obtain ⟨_, rfl⟩ := h
      split at hs
      · split at hs <;> next heq =>
          have := (modify_timer heq).2.2
          first
            | (cases hs; exact ⟨by rw [this]; exact hb, rfl, by rw [this]; exact hb⟩)
            | exact waitFail_since (by rw [this]; exact hb) (Option.some.inj hs) herr
      · cases hs; exact ⟨hb, rfl, hb⟩
    · cases hs
  | epollReturn =>
    obtain ⟨evs, rfl⟩ : ∃ evs, o = .deliver evs := by
      simp only [step] at hs
      split at hs
      · split at hs <;> cases hs
        exact ⟨_, rfl⟩
      · cases hs
    obtain ⟨_, d, cap, to, t0, hp, _, rfl, _⟩ := deliver_inv hs
    unfold Since at h; rw [hp] at h
    exact ⟨Nat.le_trans hb (Nat.le_of_eq (by simp [harvest])), h.2.1⟩
  | epollFail e =>
    simp only [step] at hs
    split at hs
    · next hp =>
      unfold Since at h; rw [hp] at h
      obtain ⟨_, rfl, _⟩ := h
      exact waitFail_since hb (Option.some.inj hs) herr
    · cases hs
  | clearRead =>
    simp only [step] at hs
    split at hs
    · next hp =>
      unfold Since at h; rw [hp] at h
      split at hs <;> cases hs
      · exact ⟨hb, by simp only [hp]; exact h.2⟩
      · exact ⟨hb, h.2⟩
    · cases hs
  | rearm fault =>
    simp only [step] at hs
    split at hs
    · next hp =>
      unfold Since at h; rw [hp] at h
      obtain ⟨_, rfl⟩ := h
      split at hs <;> next heq =>
        have := (modify_timer heq).2.2
        first
          | (cases hs; exact ⟨by rw [this]; exact hb, rfl⟩)
          | exact waitFail_since (by rw [this]; exact hb) (Option.some.inj hs) herr
    · cases hs
  | finish =>
    simp only [step] at hs
    split at hs <;> cases hs
    exact (hok _ _ rfl).elim
  | setReady fd flags key =>
    simp only [step] at hs
    split at hs; · cases hs
    split at hs; · cases hs
    cases hs
    exact h.congr rfl (Nat.le_of_eq (by dsimp only; rw [link_eq]))
  | tick dt =>
    simp only [step] at hs
    split at hs
    · cases hs; exact h.congr rfl (Nat.le_add_right _ _)
    · split at hs <;> cases hs
      · refine h.congr rfl ?_
        dsimp only
        split
        · rw [link_eq]; exact Nat.le_add_right _ _
        · exact Nat.le_add_right _ _
      · exact h.congr rfl (Nat.le_add_right _ _)

theorem run_since {c : Cfg} {b dl} : ∀ (acts : List Act) {s s' : S} {obs}, Since b dl s → runActs c s acts = some (s', obs) →
    (∀ n evs, .waitOk n evs ∉ obs) → (∀ e, .waitErr e ∉ obs) → Since b dl s' := by
  intro acts
  induction acts with
  | nil => intro s s' obs h hr _ _; cases hr; exact h
  | cons a acts ih =>
    intro s s' obs h hr h1 h2
    simp only [runActs, Option.bind_eq_some_iff, Option.map_eq_some_iff] at hr
    obtain ⟨⟨s1, o⟩, hs, ⟨s2, obs'⟩, hr, heq⟩ := hr
    cases heq
    refine ih (step_since h hs ?_ ?_) hr ?_ ?_
    · rintro n evs rfl; exact h1 n evs (by simp)
    · rintro e rfl; exact h2 e (by simp)
    · intro n evs hm; exact h1 n evs (by simp [hm])
    · intro e hm; exact h2 e (by simp [hm])

end Polling.EpollM

namespace Polling.PortM
open Port Spec

/-- The wait in progress was begun at time `b` and has the deadline `dl`; the OS call in progress got what remained of it. -/
def Since (b : Nat) (dl : Option Nat) (s : S) : Prop :=
  b ≤ s.k.time ∧
  match s.phase with
  | .idle => False
  | .top d _ => d = dl
  | .polling d _ to t0 => (d = dl ∧ to = dl.map fun d => saturatingSince d t0) ∧ t0 ≤ s.k.time
  | .taken _ => True

theorem Since.congr {b dl s s'} (h : Since b dl s) (h1 : s'.phase = s.phase) (h2 : s.k.time ≤ s'.k.time) : Since b dl s' := by
  refine ⟨Nat.le_trans h.1 h2, ?_⟩
  have h3 := h.2
  rw [h1]
  split at h3
  · exact h3
  · exact h3
  · exact ⟨h3.1, Nat.le_trans h3.2 h2⟩
  · exact h3

theorem modify_time {fault k fd ev mode r k'} (h : PortM.modify fault k fd ev mode = (r, k')) : k'.time = k.time := by
  unfold PortM.modify associate at h
  dsimp only at h
  split at h
  · cases h; rfl
  · split at h
    · cases h; rfl
    · cases h; exact (wake_env _ _ _).2.2.1

theorem delete_time {fault k fd r k'} (h : PortM.delete fault k fd = (r, k')) : k'.time = k.time := by
  unfold PortM.delete dissociate at h
  cases fault with
  | some e => cases e <;> (cases h; rfl)
  | none => cases ha : k.assoc fd <;> rw [ha] at h <;> (cases h; rfl)

theorem step_since {n : Nat} {s s' : S} {a : Act} {o : Obs EventExtra} {b dl} (h : Since b dl s) (hs : step n s a = some (s', o))
    (hok : ∀ n evs, o ≠ .waitOk n evs) (herr : ∀ e, o ≠ .waitErr e) : Since b dl s' := by
  have hb := h.1
  cases a with
  | add fd ev mode fault =>
    simp only [step] at hs
    split at hs; · cases hs; exact h
    split at hs <;> next heq => cases hs; exact h.congr rfl (Nat.le_of_eq (modify_time heq).symm)
  | modify fd ev mode fault =>
    simp only [step] at hs
    split at hs; · cases hs; exact h
    split at hs <;> next heq => cases hs; exact h.congr rfl (Nat.le_of_eq (modify_time heq).symm)
  | delete fd fault =>
    simp only [step] at hs
    split at hs; · cases hs
    split at hs <;> next heq => cases hs; exact h.congr rfl (Nat.le_of_eq (delete_time heq).symm)
  | notifyCas =>
    simp only [step] at hs
    split at hs
    · cases hs; exact h
    · split at hs <;> cases hs
      exact h.congr rfl (Nat.le_refl _)
  | notifySend fault =>
    simp only [step] at hs
    split at hs
    · split at hs <;> cases hs <;> exact h.congr rfl (Nat.le_refl _)
    · cases hs
  | waitBegin timeout cap =>
    simp only [step] at hs
    split at hs
    · next hp => unfold Since at h; rw [hp] at h; exact h.2.elim
    · cases hs
  | waitBusy =>
    simp only [step] at hs
    split at hs <;> cases hs
    exact h
  | compute =>
    simp only [step] at hs
    split at hs <;> cases hs
    next hp =>
      unfold Since at h; rw [hp] at h
      obtain ⟨_, rfl⟩ := h
      exact ⟨hb, ⟨rfl, rfl⟩, Nat.le_refl _⟩
  | getn =>
    obtain ⟨evs, rfl⟩ : ∃ evs, o = .deliver evs := by
      simp only [step] at hs
      split at hs
      · split at hs
        · cases hs; exact ⟨_, rfl⟩
        · split at hs <;> cases hs
          exact ⟨_, rfl⟩
      · cases hs
    obtain ⟨_, d, cap, to, t0, hp, ⟨_, rfl, _⟩ | ⟨_, _, rfl, _⟩⟩ := deliver_inv hs
    · exact ⟨hb, trivial⟩
    · exact ⟨hb, trivial⟩
  | getnFail e =>
    simp only [step] at hs
    split at hs
    · next hp =>
      unfold Since at h; rw [hp] at h
      split at hs <;> cases hs
      · exact ⟨hb, h.2.1.1⟩
      · exact (herr _ rfl).elim
    · cases hs
  | finish =>
    simp only [step] at hs
    split at hs <;> cases hs
    exact (hok _ _ rfl).elim
  | setReady fd flags key =>
    simp only [step] at hs
    split at hs; · cases hs
    cases hs
    refine h.congr rfl (Nat.le_of_eq ?_)
    dsimp only
    rw [(wake_env _ _ _).2.2.1]
  | tick dt =>
    cases hs
    exact h.congr rfl (Nat.le_add_right _ _)

theorem run_since {n : Nat} {b dl} : ∀ (acts : List Act) {s s' : S} {obs}, Since b dl s → runActs n s acts = some (s', obs) →
    (∀ n evs, .waitOk n evs ∉ obs) → (∀ e, .waitErr e ∉ obs) → Since b dl s' := by
  intro acts
  induction acts with
  | nil => intro s s' obs h hr _ _; cases hr; exact h
  | cons a acts ih =>
    intro s s' obs h hr h1 h2
    simp only [runActs, Option.bind_eq_some_iff, Option.map_eq_some_iff] at hr
    obtain ⟨⟨s1, o⟩, hs, ⟨s2, obs'⟩, hr, heq⟩ := hr
    cases heq
    refine ih (step_since h hs ?_ ?_) hr ?_ ?_
    · rintro n evs rfl; exact h1 n evs (by simp)
    · rintro e rfl; exact h2 e (by simp)
    · intro n evs hm; exact h1 n evs (by simp [hm])
    · intro e hm; exact h2 e (by simp [hm])

end Polling.PortM

namespace Polling.C09
open Spec

theorem add_le {now d : Nat} {t : Duration} (h : instantCheckedAdd unixMaxNs now t = some d) : now + t.ns = d ∧ d ≤ unixMaxNs := by
  unfold instantCheckedAdd at h
  split at h <;> cases h
  exact ⟨rfl, by assumption⟩

/-- A `wait(Some(t))` on the epoll poller, begun in any reachable state `s0`; meanwhile anything happens: calls of other threads,
interruptions, changes of readiness, notifications.  If the OS then lets it go with no event for a source, a notification was written,
or at least `t` has passed since it began (without a timerfd: or the longest time the OS call accepts, 2147483647 ms). -/
theorem epoll_run_not_early (c : EpollM.Cfg) (hok : c.Ok) (s0 : EpollM.S) (tr : List (Obs Epoll.EventExtra)) (h : EpollM.Reach c s0 tr)
    (t : Duration) (cap : Nat) (s1 : EpollM.S) (hb : EpollM.step c s0 (.waitBegin (some t) cap) = some (s1, .waitBegin))
    (acts : List EpollM.Act) (s2 : EpollM.S) (obs : List (Obs Epoll.EventExtra)) (hr : EpollM.runActs c s1 acts = some (s2, obs))
    (hno : ∀ n evs, .waitOk n evs ∉ obs) (hne : ∀ e, .waitErr e ∉ obs)
    (a : EpollM.Act) (s3 : EpollM.S) (evs) (hd : EpollM.step c s2 a = some (s3, .deliver evs)) :
    evs ≠ [] ∨ s2.k.count > 0 ∨ s0.k.time + t.ns ≤ s2.k.time ∨ (c.hasTimer = false ∧ s0.k.time + 2147483647000000 ≤ s2.k.time) := by
  have h1 : EpollM.Since s0.k.time (instantCheckedAdd unixMaxNs s0.k.time t) s1 := by
    simp only [EpollM.step] at hb
    split at hb
    · split at hb <;> cases hb
      exact ⟨Nat.le_refl _, rfl⟩
    · cases hb
  have h2 := EpollM.run_since acts h1 hr hno hne
  have hr2 := EpollM.run_reach (.step h hb) hr
  rcases C12.epoll_wait_ends_by c hok s2 s3 _ hr2 a evs hd with h3 | h3 | ⟨d, cap', to, t0, hp, h3⟩
  · exact .inl h3
  · exact .inr (.inl h3)
  · unfold EpollM.Since at h2
    rw [hp] at h2
    obtain ⟨_, hdl, ht0⟩ := h2
    obtain ⟨he, _⟩ := add_le hdl.symm
    rcases h3 with h3 | ⟨h3, h4⟩
    · exact .inr (.inr (.inl (by omega)))
    · exact .inr (.inr (.inr ⟨h3, by omega⟩))

/-- The same for event ports: unless the OS had something queued, at least `t` has passed. -/
theorem port_run_not_early (n : Nat) (s0 : PortM.S) (t : Duration) (cap : Nat) (s1 : PortM.S)
    (hb : PortM.step n s0 (.waitBegin (some t) cap) = some (s1, .waitBegin))
    (acts : List PortM.Act) (s2 : PortM.S) (obs : List (Obs Port.EventExtra)) (hr : PortM.runActs n s1 acts = some (s2, obs))
    (hno : ∀ n evs, .waitOk n evs ∉ obs) (hne : ∀ e, .waitErr e ∉ obs)
    (a : PortM.Act) (s3 : PortM.S) (evs) (hd : PortM.step n s2 a = some (s3, .deliver evs)) :
    s2.k.queue ≠ [] ∨ s0.k.time + t.ns ≤ s2.k.time := by
  have h1 : PortM.Since s0.k.time (instantCheckedAdd unixMaxNs s0.k.time t) s1 := by
    simp only [PortM.step] at hb
    split at hb
    · split at hb <;> cases hb
      exact ⟨Nat.le_refl _, rfl⟩
    · cases hb
  have h2 := PortM.run_since acts h1 hr hno hne
  obtain ⟨_, d, cap', to, t0, hp, ⟨h3, _⟩ | ⟨_, h3, _⟩⟩ := PortM.deliver_inv hd
  · exact .inl h3
  · refine .inr ?_
    unfold PortM.Since at h2
    rw [hp] at h2
    obtain ⟨_, ⟨rfl, rfl⟩, _⟩ := h2
    cases hdl : instantCheckedAdd unixMaxNs s0.k.time t with
    | none => rw [hdl] at h3; cases h3
    | some d =>
      rw [hdl] at h3
      obtain ⟨he, hm⟩ := add_le hdl
      have := EpollM.since_ns (t := t0) hm
      simp only [PortM.timeUp, Option.map_some, decide_eq_true_eq] at h3
      omega

/-- The same wait with epoll and a timerfd, as two acts of a history: it is not let go one nanosecond earlier. -/
example : ((EpollM.runActs EpollM.exCfg (EpollM.init EpollM.exCfg fun _ => 0#32) [.tick 9, .waitBegin (some ⟨5000000, by decide⟩) 4, .compute,
      .settime none, .armTimer none, .tick 2000000, .epollFail .interrupted, .compute, .settime none, .armTimer none, .tick 3000000, .epollReturn,
      .clearRead, .rearm none, .finish]).map fun r => (r.1.k.time, r.2.head?)) = some (5000009, some (.waitOk 0 [])) ∧
    ((EpollM.runActs EpollM.exCfg (EpollM.init EpollM.exCfg fun _ => 0#32) [.tick 9, .waitBegin (some ⟨5000000, by decide⟩) 4, .compute,
      .settime none, .armTimer none, .tick 2000000, .epollFail .interrupted, .compute, .settime none, .armTimer none, .tick 2999999,
      .epollReturn]).map fun r => r.1.k.time) = none := by
  refine ⟨by decide +kernel, by decide +kernel⟩

/-- Five milliseconds, of which a signal takes two; a descriptor that nobody asked for becomes ready. -/
example : ((PortM.runActs 1 (PortM.init fun _ => 0#16) [.tick 9, .waitBegin (some ⟨5000000, by decide⟩) 4, .compute, .tick 2000000,
      .getnFail .interrupted, .compute, .setReady 7 1#16 1#16, .tick 3000000, .getn, .finish]).map fun r => (r.1.k.time, r.2.head?)) =
      some (5000009, some (.waitOk 0 [])) ∧
    PortM.runActs 1 (PortM.init fun _ => 0#16) [.tick 9, .waitBegin (some ⟨5000000, by decide⟩) 4, .compute, .tick 2000000,
      .getnFail .interrupted, .compute, .tick 2999999, .getn] = none := by
  refine ⟨by decide +kernel, rfl⟩

end Polling.C09
